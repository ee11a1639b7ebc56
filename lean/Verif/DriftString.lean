/-
How far rounding moves the edges of a string overlay: separately for the edges of the shape and for the lines.
-/
import Verif.Drift
import Verif.WindConst
import Verif.Props.SliceShapes

namespace IOverlay
variable {C : Type}
open WindingCount

/-! ### other strategies, with more than two edges -/

theorem loop_to_list_many [WindingCount C] (st : Strategy) (tree : TreeOracle C) (ht : tree.Ok) (n : Nat)
    (mode : Mode) (sr : SnapRadius) (segs r : List (Seg C)) (hs : segs.Pairwise Seg.lt)
    (hl : ∀ s ∈ segs, s.a < s.b) (hn : 2 < r.length)
    (h : splitLoop st tree n mode sr segs = some r) :
    splitLoop .list tree n .list sr segs = some r := by
  induction n generalizing mode sr segs with
  | zero => simp [splitLoop] at h
  | succ n ih =>
    have hc := listPairs_covers segs (sorted_of_strict hs) hl
    have hr := sr.radius_nonneg
    cases mode with
    | list =>
      rw [splitLoop] at h ⊢
      simp only [isListSplit_list, if_true] at h ⊢
      split_ifs at h ⊢ with c1 c2 c3 c4
      · exact h
      · exact h
      · exact ih .list _ _ (applyMarks_sorted _ _) (applyMarks_lt hl hc hr) h
      · exact ih .tree _ _ (applyMarks_sorted _ _) (applyMarks_lt hl hc hr) h
      · exact h
    | tree =>
      rw [splitLoop] at h
      have : splitLoop .list tree n .list sr segs = some r := by
        split_ifs at h
        · exact ih .treeLoop _ _ hs hl h
        · exact ih .list _ _ hs hl h
      exact splitLoop_mono _ _ _ _ _ _ _ this _ (Nat.le_succ n)
    | treeLoop =>
      rw [splitLoop] at h
      simp only at h
      obtain ⟨a1, a2, a3⟩ := covers_round hl (ht segs hs hl) hc hr
      split_ifs at h with c1 c2 c3
      · simp only [Option.some.injEq] at h; subst h; omega
      · rw [splitLoop]; simp only
        rw [if_neg (by omega), ← a1, if_pos c2]; exact h
      · rw [splitLoop]; simp only
        rw [if_neg (by omega), ← a1, if_neg c2, ← a2, if_pos c3, ← a3, isListSplit_list, if_pos rfl]
        exact ih .treeLoop _ _ (applyMarks_sorted _ _) (applyMarks_lt hl (ht segs hs hl) hr) h
      · rw [splitLoop]; simp only
        rw [if_neg (by omega), ← a1, if_neg c2, ← a2, if_neg c3, ← a3]; exact h

theorem frag_to_list_many [WindingCount C] (tree : TreeOracle C) (g : Grid) (n : Nat) (sr : SnapRadius)
    (segs r : List (Seg C)) (hst : FragState g segs) (hcl : FragClear g sr segs) (hn : 2 < r.length)
    (h : fragLoop g n sr segs = some r) : splitLoop .list tree n .list sr segs = some r := by
  induction n generalizing sr segs with
  | zero => simp [fragLoop] at h
  | succ n ih =>
    have hst' := hst.next sr.radius_nonneg
    obtain ⟨hsafe, h30⟩ := hcl sr segs (.start _ _)
    obtain ⟨a1, a2, a3⟩ := fragRound_same hst hsafe h30
    rw [fragLoop] at h
    dsimp only at h
    rw [splitLoop]
    simp only [isListSplit_list, if_true]
    split at h
    · simp only [Option.some.injEq] at h; subst h; omega
    · next hlen =>
      rw [if_neg (by omega)]
      rw [a1, a2] at h
      split_ifs at h ⊢ with c1 c2
      · exact h
      · rw [a3] at h hst'
        exact ih _ _ hst' (hcl.next c2) h
      · rw [a3] at h; exact h

theorem noded_to_list_many [WindingCount C] {st : Strategy} {sr : SnapRadius} {tree : TreeOracle C} (ht : tree.Ok)
    {fuel : Nat} {segs r : List (Seg C)} (hlt : ∀ s ∈ segs, s.a < s.b) (hf : FragOk st sr segs)
    (hn : st = .list ∨ 2 < r.length) (h : splitSegments st sr tree fuel segs = some r) :
    splitLoop .list tree fuel .list sr (mergeIfNeeded (sortSegs segs)) = some r := by
  have hs := start_sorted segs
  have hl := start_lt hlt
  rcases hn with rfl | hn
  · unfold splitSegments at h
    simpa [isListSplit] using h
  unfold splitSegments at h
  simp only at h
  split at h
  · exact loop_to_list_many st tree ht fuel _ sr _ r hs hl hn h
  · next hn' =>
    split at h
    · next hfr =>
      unfold fragSplit at h
      split at h
      · exact loop_to_list_many st tree ht fuel _ sr _ r hs hl hn h
      · next g hg =>
        obtain ⟨f1, f2⟩ := hf (by simpa using hn') hfr g hg
        exact frag_to_list_many tree g fuel sr _ r ⟨hs, Grid.new_inGrid hs hl hg, f1⟩ f2 hn h
    · exact loop_to_list_many st tree ht fuel _ sr _ r hs hl hn h

/-! ### edges with a property -/

/-- A property of counts that a sum has only if a summand has it. -/
structure Passed [WindingCount C] (P : C → Prop) : Prop where
  add : ∀ x y, P (add x y) → P x ∨ P y
  invert : ∀ x, P (invert x) → P x

theorem Passed.comp [WindingCount C] {φ : C → Int} (h : IsComp φ) : Passed fun c => φ c ≠ 0 where
  add x y hxy := by
    rw [h.add] at hxy
    by_contra hn
    simp only [not_or, not_not] at hn
    exact hxy (by rw [hn.1, hn.2]; rfl)
  invert x hx := by rw [h.invert] at hx; simpa using hx

section
variable [WindingCount C] {P : C → Prop} (hP : Passed P)
include hP

theorem mergeLoop_passed (prev : Seg C) (l : List (Seg C)) :
    ∀ s ∈ mergeLoop prev l, P s.c → ∃ t ∈ prev :: l, s.a = t.a ∧ s.b = t.b ∧ P t.c := by
  induction l generalizing prev with
  | nil =>
    intro s hs h; rw [mergeLoop] at hs
    split at hs
    · rw [List.mem_singleton] at hs; subst hs; exact ⟨s, by simp, rfl, rfl, h⟩
    · simp at hs
  | cons u l ih =>
    intro s hs h; rw [mergeLoop] at hs
    split at hs
    · next hx =>
      rw [Seg.sameX_iff] at hx
      obtain ⟨t, ht, e1, e2, e3⟩ := ih _ s hs h
      rcases List.mem_cons.1 ht with rfl | ht
      · rcases hP.add _ _ e3 with e | e
        · exact ⟨prev, by simp, e1, e2, e⟩
        · exact ⟨u, by simp, e1.trans hx.1, e2.trans hx.2, e⟩
      · exact ⟨t, by simp [ht], e1, e2, e3⟩
    · split at hs
      · rcases List.mem_cons.1 hs with rfl | hs
        · exact ⟨s, by simp, rfl, rfl, h⟩
        · obtain ⟨t, ht, e⟩ := ih _ s hs h; exact ⟨t, List.mem_cons_of_mem _ ht, e⟩
      · obtain ⟨t, ht, e⟩ := ih _ s hs h; exact ⟨t, List.mem_cons_of_mem _ ht, e⟩

theorem mergeIfNeeded_passed (l : List (Seg C)) :
    ∀ s ∈ mergeIfNeeded l, P s.c → ∃ t ∈ l, s.a = t.a ∧ s.b = t.b ∧ P t.c := by
  have scan : ∀ (l : List (Seg C)) (prev : Seg C),
      ∀ s ∈ mergeScan prev l, P s.c → ∃ t ∈ prev :: l, s.a = t.a ∧ s.b = t.b ∧ P t.c := by
    intro l
    induction l with
    | nil =>
      intro prev s hs h
      rw [mergeScan, List.mem_singleton] at hs; subst hs
      exact ⟨s, by simp, rfl, rfl, h⟩
    | cons u l ih =>
      intro prev s hs h; rw [mergeScan] at hs
      split at hs
      · exact mergeLoop_passed hP _ _ s hs h
      · rcases List.mem_cons.1 hs with rfl | hs
        · exact ⟨s, by simp, rfl, rfl, h⟩
        · obtain ⟨t, ht, e⟩ := ih _ s hs h; exact ⟨t, List.mem_cons_of_mem _ ht, e⟩
  cases l with
  | nil => intro s hs; simp [mergeIfNeeded] at hs
  | cons p l => exact scan l p

theorem chainSegs_passed (c : C) (b : Pt) : ∀ (l : List Pt) (p : Pt), ∀ e ∈ chainSegs c b p l, P e.c → P c := by
  have key : ∀ u v : Pt, P (createValidate u v c).c → P c := by
    intro u v h
    unfold createValidate at h
    split at h
    · exact h
    · exact hP.invert _ h
  intro l
  induction l with
  | nil => intro p e he h; rw [chainSegs, List.mem_singleton] at he; subst he; exact key _ _ h
  | cons m l ih =>
    intro p e he h
    rw [chainSegs] at he
    rcases List.mem_cons.1 he with rfl | he
    · exact key _ _ h
    · exact ih m e he h

variable {segs : List (Seg C)} {pairs : List EPair} {radius : Int} (hl : ∀ s ∈ segs, s.a < s.b) (hc : Covers pairs segs)
  (hr : 0 ≤ radius) (hR : ∀ s ∈ segs, InRange s.a ∧ InRange s.b)
include hl hc hr hR

/-- After a round every edge with the property is close to an edge that had it before. -/
theorem round_close_passed {e : Seg C} (he : e ∈ applyMarks (roundMarks radius pairs).1 segs) (hPe : P e.c) :
    ∃ s ∈ segs, P s.c ∧ Within (roundReach radius pairs) e.a.q s.a s.b ∧ Within (roundReach radius pairs) e.b.q s.a s.b := by
  obtain ⟨e', h1, h2, h3, h4'⟩ := mergeIfNeeded_passed hP _ e he hPe
  rw [(sortSegs_perm _).mem_iff] at h1
  rw [h2, h3]
  obtain ⟨i, s, h4, h5⟩ := (mem_splitAll _ _ _ _).1 h1
  rw [Nat.zero_add] at h5
  have d0 := roundReach_nonneg radius pairs
  have ha : Within (roundReach radius pairs) s.a.q s.a s.b :=
    (Within.of_on ⟨0, le_refl _, by norm_num, by unfold atParam Pt.q; simp⟩).mono d0
  have hb : Within (roundReach radius pairs) s.b.q s.a s.b :=
    (Within.of_on ⟨1, by norm_num, le_refl _, by unfold atParam Pt.q; simp⟩).mono d0
  refine ⟨s, List.mem_of_getElem? h4, ?_⟩
  unfold splitSeg at h5
  split at h5
  · rw [List.mem_singleton] at h5; subst h5; exact ⟨h4', ha, hb⟩
  · rename_i m rest hpt
    refine ⟨chainSegs_passed hP _ _ _ _ e' h5 h4', ?_⟩
    refine chainSegs_ends s.c s.b s.a _ (fun p => Within (roundReach radius pairs) p.q s.a s.b) ha hb ?_ e' h5
    intro p hp
    have := (subSort_perm _ _ _ _).mem_iff.1 hp
    rw [← hpt, mem_pointsOf] at this
    exact roundMarks_within hl hc hr hR this h4

end

theorem splitAll_sum_sel [WindingCount C] {φ : C → Int} (hφ : IsComp φ) (g : Pt → Pt → Int)
    (hg : ∀ u v, g v u = - g u v) (marks : List Mark) (k : Nat) (l : List (Seg C))
    (hadd : ∀ i s, l[i]? = some s → φ s.c ≠ 0 → ∀ pts : List Pt, (∀ p ∈ pts, (⟨k + i, p⟩ : Mark) ∈ marks) →
      pathSum g s.b s.a pts = g s.a s.b) :
    segSum φ g (splitAll marks k l) = segSum φ g l := by
  induction l generalizing k with
  | nil => rfl
  | cons s rest ih =>
    rw [splitAll, segSum_append, segSum_cons, ih]
    · congr 1
      by_cases h0 : φ s.c = 0
      · rw [h0, Int.zero_mul]
        have : ∀ e ∈ splitSeg marks k s, φ e.c = 0 := by
          intro e he
          by_contra hne
          unfold splitSeg at he
          split at he
          · rw [List.mem_singleton] at he; subst he; exact hne h0
          · exact chainSegs_passed (Passed.comp hφ) _ _ _ _ e he hne h0
        have z : ∀ L : List (Seg C), (∀ e ∈ L, φ e.c = 0) → segSum φ g L = 0 := by
          intro L
          induction L with
          | nil => intro _; rfl
          | cons e L ih => intro h; rw [segSum_cons, h e (by simp), ih fun x hx => h x (by simp [hx])]; simp
        exact z _ this
      · refine splitSeg_sum hφ g hg _ _ _ ?_
        intro pts hp
        exact hadd 0 s (by simp) h0 pts hp
    · intro i t h h0 pts hp
      exact hadd (i + 1) t (by simpa using h) h0 pts (by
        intro p h'; rw [show k + (i + 1) = k + 1 + i by omega]; exact hp p h')

section
variable [WindingCount C] {segs : List (Seg C)} {pairs : List EPair} {radius : Int} (hl : ∀ s ∈ segs, s.a < s.b)
  (hc : Covers pairs segs) (hr : 0 ≤ radius) (hR : ∀ s ∈ segs, InRange s.a ∧ InRange s.b)
include hl hc hr hR

/-- A round keeps winding numbers of points far from the edges that count. -/
theorem round_wind_sel {φ : C → Int} (hφ : IsComp φ) {q : QPt}
    (hq : ∀ s ∈ segs, φ s.c ≠ 0 → ¬ Within (roundReach radius pairs) q s.a s.b) :
    segsWind φ (applyMarks (roundMarks radius pairs).1 segs) q = segsWind φ segs q := by
  rw [segsWind_eq_segSum, segsWind_eq_segSum, applyMarks, mergeIfNeeded_segSum hφ, segSum_perm _ _ (sortSegs_perm _)]
  refine splitAll_sum_sel hφ _ (fun u v => edgeWind_swap u v q) _ _ _ ?_
  intro i s hs h0 pts hpts
  rw [Nat.zero_add] at hpts
  refine pathSum_far (hq s (List.mem_of_getElem? hs) h0) (roundReach_nonneg _ _) ?_
  intro p hp
  exact roundMarks_within hl hc hr hR (hpts p hp) hs

end

/-! ### every point of an edge is followed -/

/-- Two points differ by at most `d` in each coordinate. -/
def Near (d : ℚ) (p q : QPt) : Prop := |p.x - q.x| ≤ d ∧ |p.y - q.y| ≤ d

theorem Near.trans {d e : ℚ} {p q r : QPt} (h : Near d p q) (h' : Near e q r) : Near (d + e) p r := by
  obtain ⟨h1, h2⟩ := h
  obtain ⟨h3, h4⟩ := h'
  exact ⟨(abs_sub_le _ _ _).trans (by linarith), (abs_sub_le _ _ _).trans (by linarith)⟩

theorem Near.refl {d : ℚ} (hd : 0 ≤ d) (p : QPt) : Near d p p := by constructor <;> simpa using hd

/-- Between two points close to points of a line there is one close to any point in between. -/
theorem step_follows {d : ℚ} {a b u v : Pt} {q u0 v0 : QPt} {t t0 t1 : ℚ} (hq : atParam q a b t) (h0 : atParam u0 a b t0)
    (h1 : atParam v0 a b t1) (n0 : Near d u.q u0) (n1 : Near d v.q v0) (l0 : t0 ≤ t) (l1 : t ≤ t1) :
    ∃ q', onSeg q' u v ∧ Near d q q' := by
  obtain ⟨s, s0, s1, hs⟩ : ∃ s : ℚ, 0 ≤ s ∧ s ≤ 1 ∧ s * (t1 - t0) = t - t0 := by
    rcases eq_or_lt_of_le (l0.trans l1) with e | e
    · have : t = t0 := by linarith
      exact ⟨0, le_refl _, by norm_num, by rw [this]; ring⟩
    · have : 0 < t1 - t0 := by linarith
      exact ⟨(t - t0) / (t1 - t0), div_nonneg (by linarith) this.le, by rw [div_le_one this]; linarith, by field_simp⟩
  refine ⟨⟨u.x + s * ((v.x : ℚ) - u.x), u.y + s * ((v.y : ℚ) - u.y)⟩, ⟨s, s0, s1, rfl, rfl⟩, ?_⟩
  obtain ⟨n1x, n1y⟩ := n1
  obtain ⟨n0x, n0y⟩ := n0
  rw [abs_le] at n0x n0y n1x n1y
  simp only [Pt.q] at n0x n0y n1x n1y
  have ex : q.x = u0.x + s * (v0.x - u0.x) := by
    rw [hq.1, h0.1, h1.1]
    have : s * ((a.x : ℚ) + t1 * (b.x - a.x) - (a.x + t0 * (b.x - a.x))) = (s * (t1 - t0)) * (b.x - a.x) := by ring
    rw [this, hs]; ring
  have ey : q.y = u0.y + s * (v0.y - u0.y) := by
    rw [hq.2, h0.2, h1.2]
    have : s * ((a.y : ℚ) + t1 * (b.y - a.y) - (a.y + t0 * (b.y - a.y))) = (s * (t1 - t0)) * (b.y - a.y) := by ring
    rw [this, hs]; ring
  have sx : 0 ≤ 1 - s := by linarith
  constructor
  · rw [ex, abs_le]; dsimp only
    constructor <;> nlinarith
  · rw [ey, abs_le]; dsimp only
    constructor <;> nlinarith

/-- A chain whose vertices are close to a line, from one end of it to the other, comes close to every point of it. -/
theorem chain_follows {d : ℚ} {a b : Pt} (hd : 0 ≤ d) {q : QPt} {t : ℚ} (hq : atParam q a b t) (ht : t ≤ 1) :
    ∀ (l : List Pt) (p : Pt) (p0 : QPt) (t0 : ℚ), atParam p0 a b t0 → Near d p.q p0 → t0 ≤ t →
    (∀ m ∈ l, Within d m.q a b) → ∃ e ∈ pathSteps (p :: l ++ [b]), ∃ q', onSeg q' e.1 e.2 ∧ Near d q q' := by
  intro l
  induction l with
  | nil =>
    intro p p0 t0 h0 n0 l0 _
    refine ⟨(p, b), by simp [pathSteps], ?_⟩
    exact step_follows hq h0 (v0 := b.q) (t1 := 1) ⟨by simp [Pt.q], by simp [Pt.q]⟩ n0 (Near.refl hd _) l0 ht
  | cons m l ih =>
    intro p p0 t0 h0 n0 l0 hm
    obtain ⟨m0, ⟨s, s0, s1, hs⟩, n1⟩ := hm m (by simp)
    rcases le_total t s with h | h
    · refine ⟨(p, m), by simp [pathSteps], ?_⟩
      exact step_follows hq h0 hs n0 n1 l0 h
    · obtain ⟨e, he, h'⟩ := ih m m0 s hs n1 h fun x hx => hm x (by simp [hx])
      exact ⟨e, by simp only [pathSteps] at he ⊢; simp at he ⊢; exact Or.inr he, h'⟩

/-- A property of counts that a sum has if a summand has it, and that no empty count has. -/
structure Kept [WindingCount C] (P : C → Prop) : Prop where
  add : ∀ x y, P x ∨ P y → P (add x y)
  invert : ∀ x, P x → P (invert x)
  some : ∀ x, P x → isNotEmpty x = true

section
variable [WindingCount C] {P : C → Prop} (hP : Kept P)
include hP

theorem mergeLoop_kept : ∀ (l : List (Seg C)) (prev : Seg C), ∀ t ∈ prev :: l, P t.c →
    ∃ s ∈ mergeLoop prev l, s.a = t.a ∧ s.b = t.b ∧ P s.c := by
  intro l
  induction l with
  | nil =>
    intro prev t ht h
    rw [List.mem_singleton] at ht; subst ht
    rw [mergeLoop, if_pos (hP.some _ h)]
    exact ⟨t, by simp, rfl, rfl, h⟩
  | cons u l ih =>
    intro prev t ht h
    rw [mergeLoop]
    split
    · next hx =>
      rw [Seg.sameX_iff] at hx
      rcases List.mem_cons.1 ht with rfl | ht
      · exact ih { t with c := add t.c u.c } { t with c := add t.c u.c } (List.mem_cons_self ..) (hP.add _ _ (Or.inl h))
      · rcases List.mem_cons.1 ht with rfl | ht
        · obtain ⟨s, h1, h2, h3, h4⟩ := ih { prev with c := add prev.c t.c } { prev with c := add prev.c t.c }
            (List.mem_cons_self ..) (hP.add _ _ (Or.inr h))
          exact ⟨s, h1, h2.trans hx.1, h3.trans hx.2, h4⟩
        · exact ih _ t (by simp [ht]) h
    · rcases List.mem_cons.1 ht with rfl | ht
      · rw [if_pos (hP.some _ h)]
        exact ⟨t, by simp, rfl, rfl, h⟩
      · obtain ⟨s, h1, h2⟩ := ih u t ht h
        split
        · exact ⟨s, List.mem_cons_of_mem _ h1, h2⟩
        · exact ⟨s, h1, h2⟩

theorem mergeIfNeeded_kept (l : List (Seg C)) : ∀ t ∈ l, P t.c → ∃ s ∈ mergeIfNeeded l, s.a = t.a ∧ s.b = t.b ∧ P s.c := by
  have scan : ∀ (l : List (Seg C)) (prev : Seg C), ∀ t ∈ prev :: l, P t.c →
      ∃ s ∈ mergeScan prev l, s.a = t.a ∧ s.b = t.b ∧ P s.c := by
    intro l
    induction l with
    | nil => intro prev t ht h; exact ⟨t, by simpa [mergeScan] using ht, rfl, rfl, h⟩
    | cons u l ih =>
      intro prev t ht h
      rw [mergeScan]
      split
      · exact mergeLoop_kept hP _ _ t ht h
      · rcases List.mem_cons.1 ht with rfl | ht
        · exact ⟨t, by simp, rfl, rfl, h⟩
        · obtain ⟨s, h1, h2⟩ := ih u t ht h
          exact ⟨s, List.mem_cons_of_mem _ h1, h2⟩
  cases l with
  | nil => intro t ht; simp at ht
  | cons p l => exact scan l p

theorem chainSegs_kept {c : C} (hc : P c) (b : Pt) : ∀ (l : List Pt) (p : Pt), ∀ e ∈ pathSteps (p :: l ++ [b]),
    ∃ s ∈ chainSegs c b p l, P s.c ∧ ∀ q, onSeg q e.1 e.2 → onSeg q s.a s.b := by
  have key : ∀ u v : Pt, P (createValidate u v c).c ∧ ∀ q, onSeg q u v → onSeg q (createValidate u v c).a (createValidate u v c).b := by
    intro u v
    unfold createValidate
    split
    · exact ⟨hc, fun _ h => h⟩
    · exact ⟨hP.invert _ hc, fun _ h => onSeg_symm h⟩
  intro l
  induction l with
  | nil =>
    intro p e he
    simp only [pathSteps, List.cons_append, List.nil_append, List.tail_cons, List.zip_cons_cons, List.zip_nil_right,
      List.mem_singleton] at he
    subst he
    exact ⟨_, List.mem_singleton.2 rfl, key _ _⟩
  | cons m l ih =>
    intro p e he
    rw [chainSegs]
    have he' : e = (p, m) ∨ e ∈ pathSteps (m :: l ++ [b]) := by simpa [pathSteps] using he
    rcases he' with rfl | he'
    · exact ⟨_, List.mem_cons_self .., key _ _⟩
    · obtain ⟨s, h1, h2⟩ := ih m e he'
      exact ⟨s, List.mem_cons_of_mem _ h1, h2⟩

variable {segs : List (Seg C)} {pairs : List EPair} {radius : Int} (hl : ∀ s ∈ segs, s.a < s.b) (hc : Covers pairs segs)
  (hr : 0 ≤ radius) (hR : ∀ s ∈ segs, InRange s.a ∧ InRange s.b)
include hl hc hr hR

/-- After a round, edges with the property come close to every point of the edges that had it before. -/
theorem round_follows {s : Seg C} (hs : s ∈ segs) (hPs : P s.c) {q : QPt} (hq : onSeg q s.a s.b) :
    ∃ e ∈ applyMarks (roundMarks radius pairs).1 segs, P e.c ∧ ∃ q', onSeg q' e.a e.b ∧ Near (roundReach radius pairs) q q' := by
  have d0 := roundReach_nonneg radius pairs
  obtain ⟨i, hi, rfl⟩ := List.getElem_of_mem hs
  have h4 : segs[i]? = some segs[i] := List.getElem?_eq_getElem hi
  obtain ⟨e', he', hPe, q', hq', hn⟩ : ∃ e' ∈ splitSeg (roundMarks radius pairs).1 i segs[i], P e'.c ∧
      ∃ q', onSeg q' e'.a e'.b ∧ Near (roundReach radius pairs) q q' := by
    unfold splitSeg
    split
    · exact ⟨segs[i], by simp, hPs, q, hq, Near.refl d0 _⟩
    · rename_i m rest hpt
      obtain ⟨t, t0, t1, ht⟩ := hq
      obtain ⟨e, he, q', h1, h2⟩ := chain_follows (b := segs[i].b) d0 ht t1
        (subSort (rest.length + 1) segs[i].a.y segs[i].b (m :: rest)) segs[i].a segs[i].a.q 0
        ⟨by simp [Pt.q], by simp [Pt.q]⟩ (Near.refl d0 _) t0 (by
          intro p hp
          have := (subSort_perm _ _ _ _).mem_iff.1 hp
          rw [← hpt, mem_pointsOf] at this
          exact roundMarks_within hl hc hr hR this h4)
      obtain ⟨s, h3, h4, h5⟩ := chainSegs_kept hP hPs _ _ _ e he
      exact ⟨s, h3, h4, q', h5 q' h1, h2⟩
  obtain ⟨e, h1, h2, h3, h5⟩ := mergeIfNeeded_kept hP (sortSegs (splitAll (roundMarks radius pairs).1 0 segs)) e' (by
    rw [(sortSegs_perm _).mem_iff, mem_splitAll]
    exact ⟨i, segs[i], h4, by rw [Nat.zero_add]; exact he'⟩) hPe
  exact ⟨e, h1, h5, q', by rw [h2, h3]; exact hq', hn⟩

end

/-! ### all rounds -/

/-- All rounds of splitting: what becomes of edges with properties. -/
theorem splitLoop_drift_sel [WindingCount C] (tree : TreeOracle C) (n : Nat) (sr : SnapRadius) (segs r : List (Seg C))
    (hb : InBox rangeBox segs) (he : splitLoop .list tree n .list sr segs = some r) :
    (∀ φ : C → Int, IsComp φ → ∀ q : QPt, (∀ s ∈ segs, φ s.c ≠ 0 → ¬ Within (drift sr n) q s.a s.b) →
      segsWind φ r q = segsWind φ segs q) ∧
    (∀ P : C → Prop, Passed P → ∀ e ∈ r, P e.c →
      ∃ s ∈ segs, P s.c ∧ Within (drift sr n) e.a.q s.a s.b ∧ Within (drift sr n) e.b.q s.a s.b) ∧
    (∀ P : C → Prop, Kept P → ∀ s ∈ segs, P s.c → ∀ q, onSeg q s.a s.b →
      ∃ e ∈ r, P e.c ∧ ∃ q', onSeg q' e.a e.b ∧ Near (drift sr n) q q') := by
  induction n generalizing sr segs with
  | zero => simp [splitLoop] at he
  | succ n ih =>
    have hc := listPairs_covers segs (sorted_of_strict hb.sorted) hb.lt
    have same : ∀ d : ℚ, 0 ≤ d → (∀ φ : C → Int, IsComp φ → ∀ q : QPt, (∀ s ∈ segs, φ s.c ≠ 0 → ¬ Within d q s.a s.b) →
        segsWind φ segs q = segsWind φ segs q) ∧
        (∀ P : C → Prop, Passed P → ∀ e ∈ segs, P e.c → ∃ s ∈ segs, P s.c ∧ Within d e.a.q s.a s.b ∧ Within d e.b.q s.a s.b) ∧
        (∀ P : C → Prop, Kept P → ∀ s ∈ segs, P s.c → ∀ q, onSeg q s.a s.b →
          ∃ e ∈ segs, P e.c ∧ ∃ q', onSeg q' e.a e.b ∧ Near d q q') := by
      intro d hd
      refine ⟨fun _ _ _ _ => rfl, fun P _ e he hPe => ⟨e, he, hPe, ?_, ?_⟩, fun P _ s hs h q hq =>
        ⟨s, hs, h, q, hq, Near.refl hd _⟩⟩
      · exact (Within.of_on ⟨0, le_refl _, by norm_num, by unfold atParam Pt.q; simp⟩).mono hd
      · exact (Within.of_on ⟨1, by norm_num, le_refl _, by unfold atParam Pt.q; simp⟩).mono hd
    rw [splitLoop] at he
    simp only [isListSplit_list, if_true] at he
    split at he
    · obtain rfl := Option.some.inj he; exact same _ (drift_nonneg _ _)
    · split at he
      · obtain rfl := Option.some.inj he; exact same _ (drift_nonneg _ _)
      · split at he
        · rename_i hf
          cases n with
          | zero => simp [splitLoop] at he
          | succ n =>
            obtain ⟨i1, i2, i3⟩ := ih sr.increment _ (hb.round hc sr.radius_nonneg) he
            have hrr : roundReach sr.radius (listPairs segs) = reach sr.radius := by unfold roundReach; rw [if_pos hf]
            have d0 := drift_nonneg (n + 1) sr.increment
            refine ⟨?_, ?_, ?_⟩
            · intro φ hφ q hq
              rw [i1 φ hφ q ?_, round_wind_sel hb.lt hc sr.radius_nonneg hb.range hφ ?_]
              · intro s hs h0 hw
                rw [hrr] at hw
                refine hq s hs h0 (hw.mono ?_)
                rw [drift]; linarith
              · intro e he h0 hw
                obtain ⟨s, hs, hPs, w1, w2⟩ := round_close_passed (Passed.comp hφ) hb.lt hc sr.radius_nonneg hb.range he h0
                rw [hrr] at w1 w2
                exact hq s hs hPs (hw.trans w1 w2)
            · intro P hP e he hPe
              obtain ⟨s', hs', hPs', w1, w2⟩ := i2 P hP e he hPe
              obtain ⟨s, hs, hPs, v1, v2⟩ := round_close_passed hP hb.lt hc sr.radius_nonneg hb.range hs' hPs'
              rw [hrr] at v1 v2
              exact ⟨s, hs, hPs, w1.trans v1 v2, w2.trans v1 v2⟩
            · intro P hP s hs hPs q hq
              obtain ⟨e, he, hPe, q', hq', n1⟩ := round_follows hP hb.lt hc sr.radius_nonneg hb.range hs hPs hq
              obtain ⟨e', he', hPe', q'', hq'', n2⟩ := i3 P hP e he hPe q' hq'
              rw [hrr] at n1
              exact ⟨e', he', hPe', q'', hq'', n1.trans n2⟩
        · rename_i hf
          obtain rfl := Option.some.inj he
          have hrr : roundReach sr.radius (listPairs segs) = 0 := by unfold roundReach; rw [if_neg hf]
          have d0 := drift_nonneg (n + 1) sr
          refine ⟨?_, ?_, ?_⟩
          · intro φ hφ q hq
            refine round_wind_sel hb.lt hc sr.radius_nonneg hb.range hφ ?_
            intro s hs h0 hw
            rw [hrr] at hw
            exact hq s hs h0 (hw.mono d0)
          · intro P hP e he hPe
            obtain ⟨s, hs, hPs, v1, v2⟩ := round_close_passed hP hb.lt hc sr.radius_nonneg hb.range he hPe
            rw [hrr] at v1 v2
            exact ⟨s, hs, hPs, v1.mono d0, v2.mono d0⟩
          · intro P hP s hs hPs q hq
            obtain ⟨e, he, hPe, q', hq', n1⟩ := round_follows hP hb.lt hc sr.radius_nonneg hb.range hs hPs hq
            rw [hrr] at n1
            exact ⟨e, he, hPe, q', hq', n1.1.trans d0, n1.2.trans d0⟩

end IOverlay
