/-
Properties of contour ingestion and merging: C04 - C09.
-/
import Verif.BuildLemmas
import Verif.MergeLemmas

namespace IOverlay
open WindingCount

/-- A contour that is not closed explicitly: with at least two points, the last one differs from
the first one. -/
def NotClosedExplicitly (pts : List Pt) : Prop := 2 ≤ pts.length → pts.head? ≠ pts.getLast?

instance (pts : List Pt) : Decidable (NotClosedExplicitly pts) := by
  unfold NotClosedExplicitly; infer_instance

/-- A sample contour (a self-touching, non convex pentagon with a collinear vertex). -/
def sampleContour : List Pt := [⟨0, 0⟩, ⟨2, 0⟩, ⟨4, 0⟩, ⟨4, 4⟩, ⟨1, 1⟩, ⟨0, 4⟩]

/-! ### C04 -/

/-- C04, one contour: the edges stored for a contour give, at every point of the plane, the winding
number of the closed polygon in the component of the contour's own shape type and zero in the other
one; and no stored edge is degenerate (all run left to right, or upwards). -/
theorem C04_contour_winding (pts : List Pt) (h : NotClosedExplicitly pts) (q : QPt) :
    segsWind CountBool.subj (appendContour .subject pts) q = polyWind pts q ∧
    segsWind CountBool.clip (appendContour .subject pts) q = 0 ∧
    segsWind CountBool.subj (appendContour .clip pts) q = 0 ∧
    segsWind CountBool.clip (appendContour .clip pts) q = polyWind pts q ∧
    segsWind CountStr.subj (appendContour .subject pts) q = polyWind pts q := by
  refine ⟨?_, ?_, ?_, ?_, ?_⟩
  · have := appendPath_wind CountBool.subj 1 (d := ⟨1, 0⟩) (i := ⟨-1, 0⟩) rfl rfl pts h q
    rw [one_mul] at this; exact this
  · have := appendPath_wind CountBool.clip 0 (d := ⟨1, 0⟩) (i := ⟨-1, 0⟩) rfl rfl pts h q
    rw [zero_mul] at this; exact this
  · have := appendPath_wind CountBool.subj 0 (d := ⟨0, 1⟩) (i := ⟨0, -1⟩) rfl rfl pts h q
    rw [zero_mul] at this; exact this
  · have := appendPath_wind CountBool.clip 1 (d := ⟨0, 1⟩) (i := ⟨0, -1⟩) rfl rfl pts h q
    rw [one_mul] at this; exact this
  · have := appendPath_wind CountStr.subj 1 (d := ⟨1, false, false⟩) (i := ⟨-1, false, false⟩)
      rfl rfl pts h q
    rw [one_mul] at this; exact this

theorem C04_edges_nondegenerate {C : Type} [WindingCount C] (st : ShapeType) (pts : List Pt) :
    ∀ s ∈ (appendContour st pts : List (Seg C)), s.a < s.b := appendPath_lt _ _ pts

theorem segsWind_flatMap {C α : Type} (φ : C → Int) (f : α → List (Seg C)) (l : List α) (q : QPt) :
    segsWind φ (l.flatMap f) q = (l.map fun x => segsWind φ (f x) q).sum := by
  induction l with
  | nil => rfl
  | cons x l ih => simp [ih]

/-- C04, whole input: the subject (clip) winding number of the stored edges is the sum of the winding
numbers of the subject (clip) contours. -/
theorem C04_overlay_winding (subj clip : List (List Pt))
    (hs : ∀ c ∈ subj, NotClosedExplicitly c) (hc : ∀ c ∈ clip, NotClosedExplicitly c) (q : QPt) :
    segsWind CountBool.subj (overlaySegments subj clip) q = polysWind subj q ∧
    segsWind CountBool.clip (overlaySegments subj clip) q = polysWind clip q ∧
    ∀ s ∈ (overlaySegments subj clip : List (Seg CountBool)), s.a < s.b := by
  have m : ∀ (l : List (List Pt)) (f g : List Pt → Int), (∀ c ∈ l, f c = g c) →
      (l.map f).sum = (l.map g).sum := by
    intro l f g h; rw [List.map_congr_left h]
  have z : ∀ (l : List (List Pt)), (l.map fun _ => (0 : Int)).sum = 0 := by
    intro l; induction l <;> simp_all
  refine ⟨?_, ?_, ?_⟩
  · simp only [overlaySegments, segsWind_append, segsWind_flatMap, polysWind]
    rw [m subj _ _ fun c hc' => (C04_contour_winding c (hs c hc') q).1,
      m clip _ _ fun c hc' => (C04_contour_winding c (hc c hc') q).2.2.1, z]; simp
  · simp only [overlaySegments, segsWind_append, segsWind_flatMap, polysWind]
    rw [m subj _ _ fun c hc' => (C04_contour_winding c (hs c hc') q).2.1,
      m clip _ _ fun c hc' => (C04_contour_winding c (hc c hc') q).2.2.2.1, z]; simp
  · intro s hs
    simp only [overlaySegments, List.mem_append, List.mem_flatMap] at hs
    rcases hs with ⟨c, _, h⟩ | ⟨c, _, h⟩ <;> exact C04_edges_nondegenerate _ c s h

/-- The hypotheses are met, non-trivially: the sample contour is stored as five edges. -/
example : NotClosedExplicitly sampleContour ∧
    (appendContour .subject sampleContour : List (Seg CountBool)).length = 5 := by decide

/-! ### C05 -/

/-- C05 is false: the square closed explicitly loses a corner. The point (1/2, 1/2) is inside the
square, and has winding number zero in the stored edges of the explicitly closed contour. -/
theorem C05_explicit_closing_refuted :
    ∃ (pts : List Pt) (q : QPt), NotClosedExplicitly pts ∧
      segsWind CountBool.subj (appendContour .subject pts) q ≠
      segsWind CountBool.subj (appendContour .subject (pts ++ pts.take 1)) q := by
  refine ⟨[⟨0, 0⟩, ⟨2, 0⟩, ⟨2, 2⟩, ⟨0, 2⟩], ⟨1/2, 1/2⟩, by decide, ?_⟩
  have e1 : (appendContour .subject [⟨0, 0⟩, ⟨2, 0⟩, ⟨2, 2⟩, ⟨0, 2⟩] : List (Seg CountBool)) =
    [⟨⟨2, 0⟩, ⟨2, 2⟩, ⟨1, 0⟩⟩, ⟨⟨0, 2⟩, ⟨2, 2⟩, ⟨-1, 0⟩⟩, ⟨⟨0, 0⟩, ⟨0, 2⟩, ⟨-1, 0⟩⟩,
      ⟨⟨0, 0⟩, ⟨2, 0⟩, ⟨1, 0⟩⟩] := by decide
  have e2 : (appendContour .subject ([⟨0, 0⟩, ⟨2, 0⟩, ⟨2, 2⟩, ⟨0, 2⟩] ++
      [⟨0, 0⟩, ⟨2, 0⟩, ⟨2, 2⟩, ⟨0, 2⟩].take 1) : List (Seg CountBool)) =
    [⟨⟨2, 0⟩, ⟨2, 2⟩, ⟨1, 0⟩⟩, ⟨⟨0, 2⟩, ⟨2, 2⟩, ⟨-1, 0⟩⟩, ⟨⟨0, 2⟩, ⟨2, 0⟩, ⟨1, 0⟩⟩] := by decide
  rw [e1, e2]
  simp only [segsWind_cons, segsWind_nil, edgeWind, aboveLine]
  norm_num

theorem closePath_closed_wind {C : Type} (φ : C → Int) (k : Int) {d i : C} (hd : φ d = k)
    (hi : φ i = -k) (q : QPt) (q0 q1 p0 : Pt) :
    segsWind φ (closePath d i q0 q1 p0 q0) q = k * edgeWind p0 q1 q := by
  unfold closePath
  have h1 : isLine p0 q0 q0 = true := isLine_iff.2 (area2_self_right _ _)
  have h2 : isLine q0 q1 q0 = true := isLine_iff.2 (area2_self_left _ _)
  rw [h1, h2]
  by_cases h : p0 = q1
  · subst h; simp [edgeWind_self]
  · simp [h, withAB_wind φ k hd hi]

/-- C05, what is true (partial): an explicitly closed contour registers the winding number of the
polygon minus that of exactly one triangle with apex at its first vertex, spanned by the vertices
`u`, `v` (the ends of the collinear runs before and after it). It registers the polygon's winding
number itself precisely where that triangle has winding number zero, in particular everywhere when
the first vertex lies on the line `u v`. Missing from the full claim: the triangle should never be
lost. -/
theorem C05_explicit_closing_partial (q0 : Pt) (l : List Pt) :
    ∃ u ∈ q0 :: l, ∃ v ∈ q0 :: l, ∀ q : QPt,
      segsWind CountBool.subj (appendContour .subject (q0 :: l ++ [q0])) q =
        polyWind (q0 :: l) q - polyWind [u, q0, v] q := by
  have key : ∀ (p1 : Pt) (rest : List Pt), (p1 :: rest).getLast (by simp) = q0 →
      (∀ x ∈ p1 :: rest, x ∈ q0 :: l) →
      ∃ u ∈ q0 :: l, ∃ v ∈ q0 :: l, ∀ q : QPt,
      segsWind CountBool.subj (appendContour .subject (q0 :: p1 :: rest)) q =
        pathWind q (q0 :: p1 :: rest) - polyWind [u, q0, v] q := by
    intro p1 rest hlast hsub
    have skm : ∀ (a b : Pt) (r : List Pt), (skipLine a b r).1 ∈ a :: b :: r ∧
        (skipLine a b r).2.1 ∈ a :: b :: r ∧ ∀ x ∈ (skipLine a b r).2.2, x ∈ a :: b :: r := by
      intro a b r
      induction r generalizing b with
      | nil => simp [skipLine]
      | cons c r ih =>
        rw [skipLine]; split
        · simp +contextual
        · have := ih c
          simp only [List.mem_cons] at this ⊢
          refine ⟨?_, ?_, ?_⟩
          · tauto
          · tauto
          · intro x hx; have := this.2.2 x hx; tauto
    have mlm : ∀ (a b : Pt) (r : List Pt),
        (mainLoop (⟨1, 0⟩ : CountBool) ⟨-1, 0⟩ a b r).2.1 ∈ a :: b :: r := by
      intro a b r
      induction r generalizing a b with
      | nil => simp [mainLoop]
      | cons c r ih =>
        rw [mainLoop]; split
        · have := ih a c; simp only [List.mem_cons] at this ⊢; tauto
        · have := ih b c; simp only [List.mem_cons] at this ⊢; tauto
    have s1 := skm q0 p1 rest
    have s2 := mlm (skipLine q0 p1 rest).1 (skipLine q0 p1 rest).2.1 (skipLine q0 p1 rest).2.2
    have sub' : ∀ x ∈ q0 :: p1 :: rest, x ∈ q0 :: l := by
      intro x hx
      rcases List.mem_cons.1 hx with rfl | hx
      · simp
      · exact hsub x hx
    refine ⟨(mainLoop (⟨1, 0⟩ : CountBool) ⟨-1, 0⟩ (skipLine q0 p1 rest).1
      (skipLine q0 p1 rest).2.1 (skipLine q0 p1 rest).2.2).2.1, ?_, (skipLine q0 p1 rest).1,
      sub' _ s1.1, ?_⟩
    · apply sub'
      rcases List.mem_cons.1 s2 with h | h
      · rw [h]; exact s1.1
      · rcases List.mem_cons.1 h with h | h
        · rw [h]; exact s1.2.1
        · exact s1.2.2 _ h
    intro q
    have hs := skipLine_spec q q0 p1 rest _ rfl
    have hm := mainLoop_spec CountBool.subj 1 (d := ⟨1, 0⟩) (i := ⟨-1, 0⟩) rfl rfl q
      (skipLine q0 p1 rest).1 (skipLine q0 p1 rest).2.1 (skipLine q0 p1 rest).2.2 _ rfl
    have hl : (mainLoop (⟨1, 0⟩ : CountBool) ⟨-1, 0⟩ (skipLine q0 p1 rest).1
      (skipLine q0 p1 rest).2.1 (skipLine q0 p1 rest).2.2).2.2 = q0 := by rw [hm.2, hs.2, hlast]
    have hm1 := hm.1
    simp only [appendContour, ofShape, appendPath, segsWind_append]
    rw [hl] at hm1 ⊢
    rw [closePath_closed_wind CountBool.subj 1 rfl rfl, polyWind_eq_path, hs.1]
    simp only [List.cons_append, List.nil_append, pathWind]
    have sw := edgeWind_swap (skipLine q0 p1 rest).1 (mainLoop (⟨1, 0⟩ : CountBool) ⟨-1, 0⟩
      (skipLine q0 p1 rest).1 (skipLine q0 p1 rest).2.1 (skipLine q0 p1 rest).2.2).2.1 q
    simp only [pathWind] at hm1
    linear_combination hm1 + sw
  cases l with
  | nil =>
    obtain ⟨u, hu, v, hv, h⟩ := key q0 [] rfl (by simp)
    refine ⟨u, hu, v, hv, fun q => ?_⟩
    rw [polyWind_eq_path]; exact h q
  | cons p1 rest =>
    obtain ⟨u, hu, v, hv, h⟩ := key p1 (rest ++ [q0])
      (by simp) (by
        intro x hx; simp only [List.mem_cons, List.mem_append, List.not_mem_nil, or_false] at hx ⊢
        tauto)
    refine ⟨u, hu, v, hv, fun q => ?_⟩
    rw [polyWind_eq_path]; exact h q

/-! ### C06 -/

/-- C06: fewer than two points, or all points on one line, add no edge. -/
theorem C06_degenerate_contour {C : Type} [WindingCount C] (st : ShapeType) (pts : List Pt)
    (h : pts.length < 2 ∨ ∃ a b c : Int, (a ≠ 0 ∨ b ≠ 0) ∧ ∀ p ∈ pts, a * p.x + b * p.y = c) :
    (appendContour st pts : List (Seg C)) = [] := by
  rcases h with h | ⟨a, b, c, hab, h⟩
  · match pts, h with
    | [], _ => rfl
    | [_], _ => rfl
  · exact appendPath_of_line _ _ pts hab h

/-- C06 for whole inputs: nothing is stored for degenerate input. -/
theorem C06_degenerate_input {C : Type} [WindingCount C] (subj clip : List (List Pt))
    (h : ∀ pts ∈ subj ++ clip, pts.length < 2 ∨
      ∃ a b c : Int, (a ≠ 0 ∨ b ≠ 0) ∧ ∀ p ∈ pts, a * p.x + b * p.y = c) :
    (overlaySegments subj clip : List (Seg C)) = [] := by
  unfold overlaySegments
  rw [List.append_eq_nil_iff, List.flatMap_eq_nil_iff, List.flatMap_eq_nil_iff]
  exact ⟨fun c hc => C06_degenerate_contour _ c (h c (by simp [hc])),
    fun c hc => C06_degenerate_contour _ c (h c (by simp [hc]))⟩

/-- A degenerate contour going back and forth on the line `2x - y = 1`; and one that is not degenerate
is stored. -/
example : (∀ p ∈ [(⟨1, 1⟩ : Pt), ⟨3, 5⟩, ⟨2, 3⟩, ⟨0, -1⟩], 2 * p.x + (-1) * p.y = 1) ∧
    (appendContour .clip [⟨1, 1⟩, ⟨3, 5⟩, ⟨2, 3⟩, ⟨0, 0⟩] : List (Seg CountBool)) ≠ [] := by decide

/-! ### C07 -/

theorem polyWind_rotate_one (p : Pt) (l : List Pt) (q : QPt) :
    polyWind (l ++ [p]) q = polyWind (p :: l) q := by
  cases l with
  | nil => rfl
  | cons u l =>
    rw [List.cons_append, polyWind_eq_path, polyWind_eq_path, pathWind_append_last q _ (by simp)]
    simp only [List.cons_append, pathWind]
    rw [List.getLast_cons (by simp), List.getLast_append_singleton]; ring

theorem polyWind_rotate (l : List Pt) (n : Nat) (q : QPt) :
    polyWind (l.rotate n) q = polyWind l q := by
  induction n generalizing l with
  | zero => simp
  | succ n ih =>
    cases l with
    | nil => simp
    | cons p l => rw [List.rotate_cons_succ, ih, polyWind_rotate_one]

theorem pathWind_reverse (q : QPt) (l : List Pt) : pathWind q l.reverse = - pathWind q l := by
  induction l with
  | nil => rfl
  | cons u l ih =>
    cases l with
    | nil => rfl
    | cons v l =>
      rw [List.reverse_cons, pathWind_append_last q _ (by simp), ih, List.getLast_reverse]
      simp only [List.head_cons, pathWind]
      rw [edgeWind_swap u v]; ring

theorem polyWind_reverse (l : List Pt) (q : QPt) : polyWind l.reverse q = - polyWind l q := by
  cases l with
  | nil => rfl
  | cons p l =>
    rw [List.reverse_cons, polyWind_rotate_one, polyWind_eq_path, polyWind_eq_path,
      ← pathWind_reverse]
    simp

/-- C07: starting from another vertex leaves the registered winding numbers unchanged. -/
theorem C07_rotation (pts : List Pt) (n : Nat) (h : NotClosedExplicitly pts)
    (h' : NotClosedExplicitly (pts.rotate n)) (q : QPt) :
    segsWind CountBool.subj (appendContour .subject (pts.rotate n)) q =
      segsWind CountBool.subj (appendContour .subject pts) q ∧
    segsWind CountBool.clip (appendContour .clip (pts.rotate n)) q =
      segsWind CountBool.clip (appendContour .clip pts) q := by
  rw [(C04_contour_winding _ h' q).1, (C04_contour_winding _ h q).1,
    (C04_contour_winding _ h' q).2.2.2.1, (C04_contour_winding _ h q).2.2.2.1, polyWind_rotate]
  exact ⟨rfl, rfl⟩

/-- C07: traversing a contour the other way negates them. -/
theorem C07_reversal (pts : List Pt) (h : NotClosedExplicitly pts) (q : QPt) :
    segsWind CountBool.subj (appendContour .subject pts.reverse) q =
      - segsWind CountBool.subj (appendContour .subject pts) q ∧
    segsWind CountBool.clip (appendContour .clip pts.reverse) q =
      - segsWind CountBool.clip (appendContour .clip pts) q := by
  have h' : NotClosedExplicitly pts.reverse := by
    unfold NotClosedExplicitly at *
    rw [List.length_reverse, List.head?_reverse, List.getLast?_reverse]
    exact fun hl => (h hl).symm
  rw [(C04_contour_winding _ h' q).1, (C04_contour_winding _ h q).1,
    (C04_contour_winding _ h' q).2.2.2.1, (C04_contour_winding _ h q).2.2.2.1, polyWind_reverse]
  exact ⟨rfl, rfl⟩

/-- C07: EvenOdd and NonZero regions do not see the sign, and the sign swaps Positive and
Negative. -/
theorem C07_fill_rules (w : Int) :
    FillRule.evenOdd.inside (-w) = FillRule.evenOdd.inside w ∧
    FillRule.nonZero.inside (-w) = FillRule.nonZero.inside w ∧
    FillRule.positive.inside (-w) = FillRule.negative.inside w := by
  refine ⟨?_, ?_, ?_⟩
  · have : (-w) % 2 = w % 2 := by omega
    simp [FillRule.inside, this]
  · by_cases h : w = 0
    · simp [h]
    · have h1 : (-w != 0) = true := by simpa using h
      have h2 : (w != 0) = true := by simpa using h
      simp only [FillRule.inside, h1, h2]
  · simp [FillRule.inside]

example : NotClosedExplicitly (sampleContour.rotate 2) ∧ sampleContour.rotate 2 ≠ sampleContour ∧
    (appendContour .subject (sampleContour.rotate 2) : List (Seg CountBool)) ≠
      appendContour .subject sampleContour := by decide

end IOverlay
