/-
`add_sort_by_angle` (bind/solver.rs): runs of anchors with a common left end are sorted by angle. C26.
-/
import Verif.BindScan
import Mathlib.Data.List.SplitBy

namespace IOverlay

theorem insertBy_perm (cmp : IdSeg → IdSeg → Ordering) (x : IdSeg) : ∀ l, (insertBy cmp x l).Perm (x :: l) := by
  intro l
  induction l with
  | nil => exact List.Perm.refl _
  | cons y r ih =>
    rw [insertBy]
    split
    · exact (ih.cons y).trans (List.Perm.swap x y r)
    · exact List.Perm.refl _

theorem stableSort_perm (cmp : IdSeg → IdSeg → Ordering) : ∀ l, (stableSort cmp l).Perm l := by
  intro l
  induction l with
  | nil => exact List.Perm.refl _
  | cons x l ih => exact (insertBy_perm cmp x _).trans (ih.cons x)

theorem cmpByAngle_gt {x y : IdSeg} (ha : x.a = y.a) : cmpByAngle x y = .gt ↔ Before y x := by
  have hn : ¬ y.a < x.a := by rw [ha]; exact Pt.lt_irrefl _
  unfold Before cmpByAngle
  rw [Int.compare_eq_gt, cross_area ha, ha, fan_swap]
  simp only [Pt.lt_irrefl, false_or, true_and]
  omega

/-- Sorting edges with a common left end. -/
theorem stableSort_fan {p : Pt} : ∀ l : List IdSeg, (∀ x ∈ l, x.a = p ∧ x.a < x.b) →
    l.Pairwise (fun x y => Before x y ∨ Before y x) → (stableSort cmpByAngle l).Pairwise Before := by
  have ins : ∀ (x : IdSeg) (l : List IdSeg), (∀ y ∈ x :: l, y.a = p ∧ y.a < y.b) →
      (∀ y ∈ l, Before x y ∨ Before y x) → l.Pairwise Before → (insertBy cmpByAngle x l).Pairwise Before := by
    intro x l
    induction l with
    | nil => intro _ _ _; simp [insertBy]
    | cons y r ih =>
      intro h1 h2 h3
      obtain ⟨h4, h5⟩ := List.pairwise_cons.1 h3
      have hx := h1 x (by simp)
      have hy := h1 y (by simp)
      rw [insertBy]
      split
      · rename_i hc
        have hyx := (cmpByAngle_gt (hx.1.trans hy.1.symm)).1 hc
        refine List.pairwise_cons.2 ⟨?_, ih ?_ (fun z hz => h2 z (by simp [hz])) h5⟩
        · intro z hz
          rcases List.mem_cons.1 ((insertBy_perm _ _ _).mem_iff.1 hz) with rfl | hz
          · exact hyx
          · exact h4 z hz
        · intro z hz
          rcases List.mem_cons.1 hz with rfl | hz
          · exact hx
          · exact h1 z (by simp [hz])
      · rename_i hc
        have hxy : Before x y := by
          rcases h2 y (by simp) with h | h
          · exact h
          · exact absurd ((cmpByAngle_gt (hx.1.trans hy.1.symm)).2 h) hc
        refine List.pairwise_cons.2 ⟨?_, h3⟩
        intro z hz
        rcases List.mem_cons.1 hz with rfl | hz
        · exact hxy
        · exact before_trans hx.2 hy.2 (h1 z (by simp [hz])).2 hxy (h4 z hz)
  intro l
  induction l with
  | nil => intros; exact List.Pairwise.nil
  | cons x l ih =>
    intro h1 h2
    obtain ⟨h3, h4⟩ := List.pairwise_cons.1 h2
    have hp := stableSort_perm cmpByAngle l
    refine ins x (stableSort cmpByAngle l) ?_ ?_ (ih (fun y hy => h1 y (by simp [hy])) h4)
    · intro y hy
      rcases List.mem_cons.1 hy with rfl | hy
      · exact h1 _ (by simp)
      · exact h1 y (by simp [hp.mem_iff.1 hy])
    · intro y hy
      exact h3 y (hp.mem_iff.1 hy)

theorem addSortByAngle_perm (l : List IdSeg) : (addSortByAngle l).Perm l := by
  unfold addSortByAngle
  conv_rhs => rw [← List.flatten_splitBy (fun s t : IdSeg => decide (s.a = t.a)) l]
  generalize l.splitBy (fun s t : IdSeg => decide (s.a = t.a)) = G
  induction G with
  | nil => exact List.Perm.refl _
  | cons g G ih =>
    rw [List.flatMap_cons, List.flatten_cons]
    exact (stableSort_perm _ _).append ih

/-- Anchors listed by their left ends come out in the order of the sweep. -/
theorem addSortByAngle_sorted {l : List IdSeg} (hlt : ∀ x ∈ l, x.a < x.b) (ha : l.Pairwise fun x y => ¬ y.a < x.a)
    (hc : l.Pairwise fun x y => x.a = y.a → Before x y ∨ Before y x) : (addSortByAngle l).Pairwise Before := by
  unfold addSortByAngle
  have hfl := List.flatten_splitBy (fun s t : IdSeg => decide (s.a = t.a)) l
  have hch := List.isChain_getLast_head_splitBy (fun s t : IdSeg => decide (s.a = t.a)) l
  have hin := fun g => List.isChain_of_mem_splitBy (r := fun s t : IdSeg => decide (s.a = t.a)) (l := l) (m := g)
  have hne := fun g => List.ne_nil_of_mem_splitBy (r := fun s t : IdSeg => decide (s.a = t.a)) (l := l) (m := g)
  generalize l.splitBy (fun s t : IdSeg => decide (s.a = t.a)) = G at *
  -- all elements of a group have the same left end
  have hsame : ∀ g ∈ G, ∀ x ∈ g, ∀ y ∈ g, x.a = y.a := by
    intro g hg
    have h1 : g.IsChain fun x y => x.a = y.a := by
      refine (hin g hg).imp ?_
      intro x y h; simpa using h
    have h2 : g.Pairwise fun x y => x.a = y.a := by
      have : Trans (fun x y : IdSeg => x.a = y.a) (fun x y : IdSeg => x.a = y.a) (fun x y : IdSeg => x.a = y.a) :=
        ⟨fun h h' => h.trans h'⟩
      exact h1.pairwise
    intro x hx y hy
    have : Std.Symm fun x y : IdSeg => x.a = y.a := ⟨fun _ _ h => h.symm⟩
    by_cases he : x = y
    · rw [he]
    · exact h2.forall hx hy he
  rw [← hfl] at ha hc hlt
  rw [List.pairwise_flatten] at ha hc
  rw [List.pairwise_flatMap]
  constructor
  · intro g hg
    rcases g with _ | ⟨x, g⟩
    · exact List.Pairwise.nil
    · refine stableSort_fan (p := x.a) _ ?_ ?_
      · intro y hy
        exact ⟨hsame _ hg y hy x (by simp), hlt y (List.mem_flatten.2 ⟨_, hg, hy⟩)⟩
      · exact (hc.1 _ hg).imp_of_mem fun {y z} hy hz h => h (hsame _ hg y hy z hz)
  · -- groups
    have main : ∀ G : List (List IdSeg), (∀ g ∈ G, g ≠ []) → (∀ g ∈ G, ∀ x ∈ g, ∀ y ∈ g, x.a = y.a) →
        G.Pairwise (fun g g' => ∀ x ∈ g, ∀ y ∈ g', ¬ y.a < x.a) →
        (G.IsChain fun a b => ∃ ha hb, decide ((a.getLast ha).a = (b.head hb : IdSeg).a) = false) →
        G.Pairwise fun g g' => ∀ x ∈ g, ∀ y ∈ g', x.a < y.a := by
      intro G
      induction G with
      | nil => intros; exact List.Pairwise.nil
      | cons g G ih =>
        intro h1 h2 h3 h4
        obtain ⟨p1, p2⟩ := List.pairwise_cons.1 h3
        refine List.pairwise_cons.2 ⟨?_, ih (fun g hg => h1 g (by simp [hg])) (fun g hg => h2 g (by simp [hg])) p2
          (List.isChain_cons.1 h4).2⟩
        rcases G with _ | ⟨g1, G⟩
        · simp
        · obtain ⟨ha, hb, hne⟩ := (List.isChain_cons.1 h4).1 g1 (by simp)
          have hne' : (g.getLast ha).a ≠ (g1.head hb).a := by simpa using hne
          have hl := List.getLast_mem ha
          have hh := List.head_mem hb
          have hlt : (g.getLast ha).a < (g1.head hb).a := by
            rcases Pt.lt_tri (g.getLast ha).a (g1.head hb).a with h | h | h
            · exact h
            · exact absurd h hne'
            · exact absurd h (p1 g1 (by simp) _ hl _ hh)
          intro g' hg' x hx y hy
          rw [h2 g (by simp) x hx _ hl]
          rcases List.mem_cons.1 hg' with rfl | hg'
          · rw [h2 g' (by simp) y hy _ hh]; exact hlt
          · have := (List.pairwise_cons.1 p2).1 g' hg' _ hh y hy
            rcases Pt.lt_tri (g1.head hb).a y.a with h | h | h
            · exact Pt.lt_trans hlt h
            · rw [← h]; exact hlt
            · exact absurd h this
    refine (main G hne hsame ha.2 hch).imp ?_
    intro g g' h x hx y hy
    exact Or.inl (h x ((stableSort_perm _ _).mem_iff.1 hx) y ((stableSort_perm _ _).mem_iff.1 hy))

end IOverlay
