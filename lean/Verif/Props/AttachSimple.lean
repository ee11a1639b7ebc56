/-
Property C43 with simplification on: holes of simplified contours.
-/
import Verif.RingRun
import Verif.Props.SliceProper

namespace IOverlay

section
variable {rule : FillRule} {r : OverlayRule} {segs : List (Seg CountBool)} {g : Graph} {V : List Pt}
  {vis : List Bool} (h : RunOk rule r segs g V vis)
include h

/-- The contours returned are those extracted. -/
theorem RunOk.returned_perm (cw : Bool) {x : Externals} (hc : CleanOk x.clean) {e : Extracted}
    (he : extractContours g r cw x.clean 0 vis = some e) {shapes : List (List (List Pt))}
    (hs : IOverlay.extract x g r cw 0 vis = some shapes) (hne : shapes ≠ []) : shapes.flatten.Perm (e.shapes ++ e.holes) := by
  obtain ⟨fs, f1, f2, f3, -⟩ := h.oriented cw hc he
  unfold IOverlay.extract at hs
  rw [he, Option.bind_some] at hs
  dsimp only at hs
  by_cases hn : e.shapes = []
  · rw [hn] at hs
    unfold joinSortedHoles at hs
    exfalso
    simp only [List.map_nil, List.isEmpty_nil, Bool.true_or, if_true] at hs
    exact hne (Option.some.inj hs).symm
  · have := (C25_join_sorted _ _ _ _ _ _ _ (by simpa using hn) hs).1
    rwa [show (e.shapes.map fun c => [c]).flatten = e.shapes by induction e.shapes <;> simp_all] at this

theorem RunOk.proper_simplified (cw : Bool) {x : Externals} (hc : CleanOk x.clean) (ht : Tidies x.clean) (hok : x.bind.Ok)
    (hso : SortsByA x.sortI) {shapes : List (List (List Pt))} (hs : IOverlay.extract x g r cw 0 vis = some shapes)
    (hap : EdgesApart shapes.flatten) (hl : ∀ sh ∈ shapes, ∀ c ∈ sh.tail, LeftmostOnce c) :
    (∀ sh ∈ shapes, ProperShape sh) ∧
      (∀ sh ∈ shapes, ∀ q, polysWind sh q = 0 ∨ polysWind sh q = outerTurn cw) ∧
      shapes.Pairwise fun sh sh' => ∀ q, polysWind sh q = 0 ∨ polysWind sh' q = 0 := by
  by_cases hne : shapes = []
  · subst hne; simp
  have hs' := hs
  unfold IOverlay.extract at hs'
  obtain ⟨e, he, -⟩ := Option.bind_eq_some_iff.1 hs'
  obtain ⟨parents, q1, q2⟩ := h.attached_simplified cw hc ht hok hso he
    (hap.perm (h.returned_perm cw hc he hs hne)) (fun c hcm => by
      obtain ⟨sh, h1, h2⟩ := h.hole_returned cw hc he hs hcm
      exact hl sh h1 c h2)
  rw [hs] at q1
  rw [← Option.some.inj q1] at q2
  obtain ⟨w1, w2, -⟩ := h.shapes_oriented cw hc hs
  have hone := fun sh (hsh : sh ∈ shapes) q => proper_wind (q2 sh hsh) (w2 sh hsh) q
  refine ⟨q2, hone, shapes_disjoint (outerTurn_ne cw) hone ?_⟩
  intro q
  rw [w1 q]
  split
  · right; simp
  · left; simp

end

/-- C43 (one-shot overlay, no area limit, simplification on or off, both directions): if the edges of the contours
returned are different segments meeting in common ends only, and every hole passes through its leftmost vertex once, then
in every returned shape the holes lie inside the outer contour and do not overlap; each shape covers a point at most once;
different shapes cover no point in common. Refuted without these conditions (`C43_simplified_refuted`,
`C43_clockwise_refuted`). -/
theorem C43_simplified_partial (k : Config) (x : Externals) (ha : Assumed k x) (ht : Tidies x.clean) (hok : x.bind.Ok)
    (hso : SortsByA x.sortI) (r : OverlayRule) (rule : FillRule) (cw : Bool) (subj clip : List (List Pt))
    (hf : FragFor k subj clip) (shapes : List (List (List Pt)))
    (h : overlayCustom k x r rule cw 0 (overlaySegments subj clip) = some shapes)
    (hap : EdgesApart shapes.flatten) (hl : ∀ sh ∈ shapes, ∀ c ∈ sh.tail, LeftmostOnce c) :
    (∀ sh ∈ shapes, ProperShape sh) ∧
    (∀ sh ∈ shapes, ∀ q, polysWind sh q = 0 ∨ polysWind sh q = outerTurn cw) ∧
    shapes.Pairwise fun sh sh' => ∀ q, polysWind sh q = 0 ∨ polysWind sh' q = 0 := by
  obtain ⟨segs, g, V, vis, h1, h2, h3⟩ := extract_oneShot ha hf h
  exact h2.proper_simplified cw ha.clean ht hok hso h3 hap hl

/-- C43 (prebuilt graph, simplification on or off). -/
theorem C43_simplified_graph_partial (k : Config) (x : Externals) (ha : Assumed k x) (ht : Tidies x.clean) (hok : x.bind.Ok)
    (hso : SortsByA x.sortI) (r : OverlayRule) (rule : FillRule) (cw : Bool) (subj clip : List (List Pt))
    (hf : FragFor k subj clip) (g : Graph) (shapes : List (List (List Pt)))
    (hg : intoGraph k x rule (overlaySegments subj clip) = some g)
    (h : extractShapesCustom x g r cw 0 = some shapes)
    (hap : EdgesApart shapes.flatten) (hl : ∀ sh ∈ shapes, ∀ c ∈ sh.tail, LeftmostOnce c) :
    (∀ sh ∈ shapes, ProperShape sh) ∧
    (∀ sh ∈ shapes, ∀ q, polysWind sh q = 0 ∨ polysWind sh q = outerTurn cw) ∧
    shapes.Pairwise fun sh sh' => ∀ q, polysWind sh q = 0 ∨ polysWind sh' q = 0 := by
  obtain ⟨segs, V, vis, h1, h2, h3⟩ := extract_graph ha hf hg h
  exact h2.proper_simplified cw ha.clean ht hok hso h3 hap hl

/-! ### witnesses -/

/-- A test for `Apart`: an edge lies strictly on one side of the other, or they share an end and have different
directions. -/
def apartB (e f : Pt × Pt) : Bool :=
  decide (0 < area2 e.1 e.2 f.1 ∧ 0 < area2 e.1 e.2 f.2) || decide (area2 e.1 e.2 f.1 < 0 ∧ area2 e.1 e.2 f.2 < 0) ||
  decide (0 < area2 f.1 f.2 e.1 ∧ 0 < area2 f.1 f.2 e.2) || decide (area2 f.1 f.2 e.1 < 0 ∧ area2 f.1 f.2 e.2 < 0) ||
  decide (e.2 = f.1 ∧ area2 e.1 e.2 f.2 ≠ 0) || decide (e.1 = f.2 ∧ area2 f.1 f.2 e.2 ≠ 0)

theorem onSeg_side {q : QPt} {a b c d : Pt} (h : onSeg q a b) (h' : onSeg q c d) :
    ∃ t : ℚ, 0 ≤ t ∧ t ≤ 1 ∧ (1 - t) * (area2 a b c : ℚ) + t * (area2 a b d : ℚ) = 0 := by
  obtain ⟨s, -, -, s1, s2⟩ := h
  obtain ⟨t, t0, t1, t2, t3⟩ := h'
  refine ⟨t, t0, t1, ?_⟩
  unfold area2
  push_cast
  rw [s1] at t2
  rw [s2] at t3
  linear_combination (-(b.y - a.y : ℚ)) * t2 + (b.x - a.x : ℚ) * t3

theorem not_onSeg_pos {q : QPt} {a b c d : Pt} (h : onSeg q a b) (h' : onSeg q c d) (h1 : 0 < area2 a b c) (h2 : 0 < area2 a b d) :
    False := by
  obtain ⟨t, t0, t1, t2⟩ := onSeg_side h h'
  have c1 : (0 : ℚ) < area2 a b c := by exact_mod_cast h1
  have c2 : (0 : ℚ) < area2 a b d := by exact_mod_cast h2
  rcases eq_or_lt_of_le t0 with k | k
  · rw [← k] at t2; linarith
  · have := mul_pos k c2
    have := mul_nonneg (sub_nonneg.2 t1) c1.le
    linarith

theorem not_onSeg_neg {q : QPt} {a b c d : Pt} (h : onSeg q a b) (h' : onSeg q c d) (h1 : area2 a b c < 0) (h2 : area2 a b d < 0) :
    False := by
  have e : ∀ p : Pt, area2 b a p = - area2 a b p := by intro p; unfold area2; ring
  exact not_onSeg_pos (onSeg_symm h) h' (by rw [e]; omega) (by rw [e]; omega)

theorem onSeg_corner {q : QPt} {a b d : Pt} (h : onSeg q a b) (h' : onSeg q b d) (h1 : area2 a b d ≠ 0) : q = b.q := by
  obtain ⟨t, t0, t1, t2⟩ := onSeg_side h h'
  have e : area2 a b b = 0 := by unfold area2; ring
  rw [e] at t2
  have c1 : (area2 a b d : ℚ) ≠ 0 := by exact_mod_cast h1
  obtain ⟨s, s0, s1, s2, s3⟩ := h'
  -- the parameter is the one on the second segment
  obtain ⟨u, -, -, u1, u2⟩ := h
  have : s * (area2 a b d : ℚ) = 0 := by
    unfold area2
    push_cast
    rw [s2] at u1
    rw [s3] at u2
    linear_combination (b.y - a.y : ℚ) * u1 - (b.x - a.x : ℚ) * u2
  have hs : s = 0 := by
    rcases mul_eq_zero.1 this with k | k
    · exact k
    · exact absurd k c1
  unfold Pt.q
  rw [hs, zero_mul, add_zero] at s2 s3
  rcases q with ⟨qx, qy⟩
  dsimp only at s2 s3
  rw [s2, s3]

theorem apart_of_test {e f : Pt × Pt} (h : apartB e f = true) : Apart e f := by
  have self : ∀ a b : Pt, area2 a b a = 0 := by intro a b; unfold area2; ring
  have self' : ∀ a b : Pt, area2 a b b = 0 := by intro a b; unfold area2; ring
  unfold apartB at h
  simp only [Bool.or_eq_true, decide_eq_true_eq] at h
  obtain ⟨e1, e2⟩ := e
  obtain ⟨f1, f2⟩ := f
  dsimp only at h
  refine ⟨?_, ?_, ?_⟩
  · intro q hq hq'
    dsimp only at hq hq' ⊢
    rcases h with ((((h | h) | h) | h) | h) | h
    · exact (not_onSeg_pos hq hq' h.1 h.2).elim
    · exact (not_onSeg_neg hq hq' h.1 h.2).elim
    · exact (not_onSeg_pos hq' hq h.1 h.2).elim
    · exact (not_onSeg_neg hq' hq h.1 h.2).elim
    · obtain ⟨rfl, h⟩ := h
      have := onSeg_corner hq hq' h
      exact ⟨Or.inr this, Or.inl this⟩
    · obtain ⟨rfl, h⟩ := h
      have := onSeg_corner hq' hq h
      exact ⟨Or.inl this, Or.inr this⟩
  · intro k
    obtain ⟨rfl, rfl⟩ := Prod.mk.inj k
    simp only [self, self'] at h
    rcases h with ((((h | h) | h) | h) | h) | h
    · omega
    · omega
    · omega
    · omega
    · exact h.2 rfl
    · exact h.2 rfl
  · intro k
    obtain ⟨rfl, rfl⟩ := Prod.mk.inj k
    simp only [self, self'] at h
    rcases h with ((((h | h) | h) | h) | h) | h
    · omega
    · omega
    · omega
    · omega
    · exact h.2 rfl
    · exact h.2 rfl

theorem edgesApart_of_test {cs : List (List Pt)} (h0 : ∀ e ∈ cs.flatMap polyEdges, e.1 ≠ e.2)
    (h : (cs.flatMap polyEdges).Pairwise fun e f => apartB e f = true) : EdgesApart cs :=
  ⟨h0, h.imp apart_of_test⟩

/-- Removes every vertex strictly between its neighbours; the first and last vertices stay. -/
def tidyFrom (p : Pt) : List Pt → List Pt
  | [] => []
  | [x] => [x]
  | x :: y :: r => if area2 p x y = 0 ∧ (p < x ∧ x < y ∨ y < x ∧ x < p) then tidyFrom p (y :: r) else x :: tidyFrom x (y :: r)

def tidyClean : List Pt → List Pt × Bool
  | [] => ([], false)
  | p :: r => (p :: tidyFrom p r, decide ((tidyFrom p r).length < r.length))

theorem tidyFrom_wind (q : QPt) : ∀ (r : List Pt) (p z : Pt),
    ((List.zip (p :: tidyFrom p r) (tidyFrom p r ++ [z])).map fun e => edgeWind e.1 e.2 q).sum =
      ((List.zip (p :: r) (r ++ [z])).map fun e => edgeWind e.1 e.2 q).sum := by
  intro r
  induction r with
  | nil => intros; rfl
  | cons x r ih =>
    intro p z
    cases r with
    | nil => rfl
    | cons y r =>
      rw [tidyFrom]
      split
      · rename_i h
        rw [ih p z]
        simp only [List.cons_append, List.zip_cons_cons, List.map_cons, List.sum_cons]
        rw [← edgeWind_add h.1 q]; ring
      · have := ih x z
        simp only [List.cons_append, List.zip_cons_cons, List.map_cons, List.sum_cons] at this ⊢
        rw [this]

theorem tidyFrom_sublist : ∀ (r : List Pt) (p : Pt), (tidyFrom p r).Sublist r := by
  intro r
  induction r with
  | nil => intro p; exact List.Sublist.refl _
  | cons x r ih =>
    intro p
    cases r with
    | nil => exact List.Sublist.refl _
    | cons y r =>
      rw [tidyFrom]
      split
      · exact (ih p).cons x
      · exact (ih x).cons_cons x

theorem tidyFrom_min : ∀ (r : List Pt) (p v : Pt), v ∈ p :: r → (∀ w ∈ p :: r, ¬ w < v) → v ∈ p :: tidyFrom p r := by
  intro r
  induction r with
  | nil => intro p v h _; exact h
  | cons x r ih =>
    intro p v hv hm
    cases r with
    | nil => exact hv
    | cons y r =>
      rw [tidyFrom]
      split
      · rename_i h
        have hne : v ≠ x := by
          rintro rfl
          rcases h.2 with k | k
          · exact hm p (by simp) k.1
          · exact hm y (by simp) k.1
        refine ih p v ?_ ?_
        · rcases List.mem_cons.1 hv with k | k
          · exact List.mem_cons.2 (Or.inl k)
          · rcases List.mem_cons.1 k with k | k
            · exact absurd k hne
            · exact List.mem_cons.2 (Or.inr k)
        · intro w hw
          refine hm w ?_
          rcases List.mem_cons.1 hw with k | k
          · exact List.mem_cons.2 (Or.inl k)
          · exact List.mem_cons.2 (Or.inr (List.mem_cons.2 (Or.inr k)))
      · rcases List.mem_cons.1 hv with k | k
        · exact List.mem_cons.2 (Or.inl k)
        · exact List.mem_cons.2 (Or.inr (ih x v k fun w hw => hm w (List.mem_cons.2 (Or.inr hw))))

theorem tidyClean_ok : CleanOk tidyClean := by
  intro c q
  cases c with
  | nil => rfl
  | cons p r => exact tidyFrom_wind q r p p

theorem tidyClean_tidies : Tidies tidyClean := by
  intro c _
  cases c with
  | nil => simp [tidyClean]
  | cons p r =>
    refine ⟨?_, ?_, ?_⟩
    · intro v hv
      exact ((tidyFrom_sublist r p).cons_cons p).subset hv
    · intro v hv hm
      exact tidyFrom_min r p v hv hm
    · intro hfl
      have hfl : ¬ (tidyFrom p r).length < r.length := by simpa [tidyClean] using hfl
      have := (tidyFrom_sublist r p).eq_of_length_le (by omega)
      change p :: tidyFrom p r = p :: r
      rw [this]

/-- External parts of the examples: simplification on. -/
def exTidy : Externals := ⟨insertionEndSort, stableSort cmpByAThenAngle, listBind, tidyClean⟩

theorem exTidy_assumed : Assumed exConfig exTidy ∧ Tidies exTidy.clean ∧ exTidy.bind.Ok ∧ SortsByA exTidy.sortI :=
  ⟨⟨bruteTree_ok, listScanOracle_ok, insertionEndSort_ok, tidyClean_ok⟩, tidyClean_tidies, listBind_ok, stableSort_sorts⟩

/-- A square with two holes, and an island in one of them: two vertices on straight edges are removed, one of them from a
hole. -/
def exTidied : List (List (List Pt)) :=
  [[[⟨0, 40⟩, ⟨0, 0⟩, ⟨40, 0⟩, ⟨40, 40⟩], [⟨5, 5⟩, ⟨5, 15⟩, ⟨30, 15⟩, ⟨30, 5⟩], [⟨11, 20⟩, ⟨11, 30⟩, ⟨21, 30⟩, ⟨21, 20⟩]],
      [[⟨10, 12⟩, ⟨10, 8⟩, ⟨20, 8⟩, ⟨20, 12⟩]]]

theorem exTidied_eq : overlayCustom exConfig exTidy .subject .evenOdd false 0
    (overlaySegments [[⟨0, 0⟩, ⟨17, 0⟩, ⟨40, 0⟩, ⟨40, 40⟩, ⟨0, 40⟩], [⟨5, 5⟩, ⟨18, 5⟩, ⟨30, 5⟩, ⟨30, 15⟩, ⟨5, 15⟩],
      sq 10 8 20 12, sq 11 20 21 30] []) = some exTidied := by
  decide +kernel

example : EdgesApart exTidied.flatten ∧ ∀ sh ∈ exTidied, ∀ c ∈ sh.tail, LeftmostOnce c := by
  refine ⟨edgesApart_of_test (by decide +kernel) (by decide +kernel), ?_⟩
  unfold LeftmostOnce exTidied
  decide +kernel

end IOverlay
