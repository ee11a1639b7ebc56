/-
C55: the vertex a contour starts at, extra vertices on its edges and the direction of all contours do not matter:
the results are identical, not only their regions.
-/
import Verif.Direction
import Verif.Props.Extract

namespace IOverlay
open WindingCount

/-- Two polygons with the same corners in the same cyclic order, without spikes and repeated points. -/
structure SameContour (c c' : List Pt) : Prop where
  left : NoSpikes c
  right : NoSpikes c'
  corners : (corners c).IsRotated (corners c')

/-- C55: contours with the same corners give identical results: shapes for every rule, direction and area limit, graphs
and vectors. -/
theorem C55_contours (k : Config) (x : Externals) {subj subj' clip clip' : List (List Pt)}
    (hs : List.Forall₂ SameContour subj subj') (hc : List.Forall₂ SameContour clip clip') :
    SameResults k x (overlaySegments subj clip) (overlaySegments subj' clip') := by
  have key : ∀ (st : ShapeType) (l l' : List (List Pt)), List.Forall₂ SameContour l l' →
      (l.flatMap (appendContour st) : List (Seg CountBool)).Perm (l'.flatMap (appendContour st)) := by
    intro st l l' h
    induction h with
    | nil => exact List.Perm.refl _
    | cons h _ ih =>
      rw [List.flatMap_cons, List.flatMap_cons]
      exact (appendContour_rotated st h.left h.right h.corners).append ih
  refine sameResults_of_perm k x ?_ (overlaySegments_nonempty subj clip)
  exact (key _ _ _ hs).append (key _ _ _ hc)

/-- C55: a contour may start at any of its vertices. -/
theorem C55_start {c : List Pt} (h : NoSpikes c) (n : Nat) : SameContour c (c.rotate n) :=
  ⟨h, h.rotate n, corners_rotate n c⟩

/-- C55: an extra vertex inside an edge (up to the start, the first edge) does not matter. -/
theorem C55_extra_vertex {a b c : Pt} {l : List Pt} (h : NoSpikes (a :: b :: c :: l)) (hb : area2 a b c = 0) :
    SameContour (a :: b :: c :: l) (a :: c :: l) := by
  have goes : ∀ {a b c : Pt}, GoesOn (a, b, c) → isLine a b c = true → 0 < dot b a c b := by
    intro a b c h hl
    rcases h with h | h
    · simp only [isLine, beq_iff_eq] at hl; exact absurd hl h
    · exact h
  have hsp : ∀ t ∈ triples (a :: b :: c :: (l ++ [a, b])), GoesOn t := by
    intro t ht
    apply h t
    unfold cyclicTriples
    simpa using ht
  have habc : GoesOn (a, b, c) := hsp _ (by simp [triples])
  have hline : isLine a b c = true := by simp [isLine, hb]
  have hd := goes habc hline
  have hab := (pos_of_dot hd).1
  have hw : OnWay a b c := Or.inr ⟨hb, hd⟩
  have sd : SameDir (b.x - a.x) (b.y - a.y) (c.x - b.x) (c.y - b.y) := hw.dir hab
  have hwb : OnWay c b a := OnWay.of_dir ⟨by linear_combination -sd.1, by have := sd.2; nlinarith⟩
  have sac : SameDir (b.x - a.x) (b.y - a.y) (c.x - a.x) (c.y - a.y) := by
    have := sd.self.add sd
    have e1 : b.x - a.x + (c.x - b.x) = c.x - a.x := by ring
    have e2 : b.y - a.y + (c.y - b.y) = c.y - a.y := by ring
    rwa [e1, e2] at this
  rcases l with _ | ⟨d, l⟩
  · exfalso
    have h2 := hsp (b, c, a) (by simp [triples])
    have hl : isLine a c a = true := by simp only [isLine, area2, beq_iff_eq]; ring
    have hl' : isLine b c a = true := by rw [← hw.line a]; exact hl
    exact hw.mid hl (goes h2 hl') rfl
  have hlast : ∃ pre y z, c :: d :: l = pre ++ [y, z] := by
    have : ∀ (l : List Pt) (x y : Pt), ∃ pre a b, x :: y :: l = pre ++ [a, b] := by
      intro l
      induction l with
      | nil => intro x y; exact ⟨[], x, y, rfl⟩
      | cons z l ih => intro x y; obtain ⟨pre, a, b, e⟩ := ih y z; exact ⟨x :: pre, a, b, by rw [e]; rfl⟩
    exact this l c d
  obtain ⟨pre, y, z, e⟩ := hlast
  have tl : ∀ w : Pt, triples (c :: d :: (l ++ [a, w])) = triples (c :: d :: l) ++ [(y, z, a), (z, a, w)] := by
    intro w
    have : c :: d :: (l ++ [a, w]) = pre ++ y :: z :: [a, w] := by
      rw [← List.cons_append, ← List.cons_append, e]; simp
    rw [this, triples_append, ← e]
    rfl
  have t1 : cyclicTriples (a :: b :: c :: d :: l) =
      (a, b, c) :: (b, c, d) :: (triples (c :: d :: l) ++ [(y, z, a), (z, a, b)]) := by
    unfold cyclicTriples
    rw [← tl b]
    simp [triples]
  have t2 : cyclicTriples (a :: c :: d :: l) = (a, c, d) :: (triples (c :: d :: l) ++ [(y, z, a), (z, a, c)]) := by
    unfold cyclicTriples
    rw [← tl c]
    simp [triples]
  have hz : GoesOn (z, a, b) := h _ (by rw [t1]; simp)
  have hc : GoesOn (b, c, d) := h _ (by rw [t1]; simp)
  have lc : isLine a c d = isLine b c d := hw.line d
  have lz : isLine z a c = isLine z a b := by rw [isLine_swap13, hwb.line, isLine_swap13]
  refine ⟨h, ?_, ?_⟩
  · intro t ht
    rw [t2] at ht
    rcases List.mem_cons.1 ht with rfl | ht
    · by_cases hl : isLine a c d = true
      · right
        rw [lc] at hl
        rcases hw.step hl (goes hc hl) with ⟨e, -⟩ | ⟨-, h⟩
        · exact absurd e (by rintro rfl; simp [dot] at hd; nlinarith [mul_self_nonneg (b.x - a.x), mul_self_nonneg (b.y - a.y)])
        · exact h
      · left
        simpa [isLine] using hl
    rcases List.mem_append.1 ht with ht | ht
    · exact h _ (by rw [t1]; simp [ht])
    rcases List.mem_cons.1 ht with rfl | ht
    · exact h _ (by rw [t1]; simp)
    · rw [List.mem_singleton] at ht
      subst ht
      by_cases hl : isLine z a c = true
      · right
        rw [lz] at hl
        have hdz := goes hz hl
        simp only [isLine, beq_iff_eq, area2] at hl
        have sz : SameDir (a.x - z.x) (a.y - z.y) (b.x - a.x) (b.y - a.y) := ⟨by linear_combination -hl, hdz⟩
        exact (sz.trans sac).2
      · left
        simpa [isLine] using hl
  · have : corners (a :: b :: c :: d :: l) = corners (a :: c :: d :: l) := by
      have f1 : isCorner (a, b, c) = false := by simp [isCorner, hb]
      have f2 : ∀ p q r : Pt, isCorner (p, q, r) = !isLine p q r := by
        intro p q r; unfold isCorner isLine; by_cases h : area2 p q r = 0 <;> simp [h]
      unfold corners
      rw [t1, t2, List.filter_cons, List.filter_cons, List.filter_cons, List.filter_append, List.filter_append]
      simp only [f1, f2, lc, lz, List.filter_cons, List.filter_nil]
      rcases isLine b c d <;> rcases isLine y z a <;> rcases isLine z a b <;> simp
    rw [this]

/-- C55: reversing all contours gives identical results, with `Positive` and `Negative` exchanged: shapes for every rule,
direction and area limit, graphs and vectors. -/
theorem C55_reversal (k : Config) (x : Externals) (rule : FillRule) (ht : k.tree.Ok) (hb : k.tree.Blind invert)
    (hsc : k.scan.Ok) {subj clip : List (List Pt)} (hs : ∀ c ∈ subj, NoSpikes c) (hc : ∀ c ∈ clip, NoSpikes c)
    (hf : FragFor k subj clip) :
    (∀ r cw minArea, overlayCustom k x r rule.opposite cw minArea (overlaySegments (subj.map List.reverse) (clip.map List.reverse)) =
      overlayCustom k x r rule cw minArea (overlaySegments subj clip)) ∧
    intoGraph k x rule.opposite (overlaySegments (subj.map List.reverse) (clip.map List.reverse)) =
      intoGraph k x rule (overlaySegments subj clip) ∧
    (∀ sortX r, intoShapeVectors k x sortX rule.opposite r (overlaySegments (subj.map List.reverse) (clip.map List.reverse)) =
      intoShapeVectors k x sortX rule r (overlaySegments subj clip)) ∧
    intoSeparateVectors k x rule.opposite (overlaySegments (subj.map List.reverse) (clip.map List.reverse)) =
      intoSeparateVectors k x rule (overlaySegments subj clip) := by
  have hp := overlaySegments_reverse hs hc
  have hne : ∀ s ∈ (overlaySegments (subj.map List.reverse) (clip.map List.reverse) : List (Seg CountBool)),
      isNotEmpty s.c = true := overlaySegments_nonempty _ _
  have S := sameResults_of_perm k x hp hne
  have hbld : ∀ inc, buildBoolean inc rule.opposite k.st k.sr k.tree k.scan k.fuel ((overlaySegments subj clip).map (Seg.mapC invert)) =
      buildBoolean inc rule k.st k.sr k.tree k.scan k.fuel (overlaySegments subj clip) :=
    fun inc => buildBoolean_invert ht hb hsc k.fuel subj clip hf
  refine ⟨?_, ?_, ?_, ?_⟩
  · intro r cw minArea
    rw [S.overlay]
    unfold overlayCustom
    rw [hbld]
  · rw [S.graph]
    unfold intoGraph
    rw [hbld]
  · intro sortX r
    rw [S.vectors]
    unfold intoShapeVectors
    rw [hbld]
  · rw [S.separate]
    unfold intoSeparateVectors
    rw [hbld]

/-- C55: so `EvenOdd` and `NonZero` results do not depend on the common direction of the contours. -/
theorem C55_direction (k : Config) (x : Externals) (rule : FillRule) (hr : rule = .evenOdd ∨ rule = .nonZero)
    (ht : k.tree.Ok) (hb : k.tree.Blind invert)
    (hsc : k.scan.Ok) {subj clip : List (List Pt)} (hs : ∀ c ∈ subj, NoSpikes c) (hc : ∀ c ∈ clip, NoSpikes c)
    (hf : FragFor k subj clip) (r : OverlayRule) (cw : Bool) (minArea : Nat) :
    overlayCustom k x r rule cw minArea (overlaySegments (subj.map List.reverse) (clip.map List.reverse)) =
      overlayCustom k x r rule cw minArea (overlaySegments subj clip) := by
  have h := (C55_reversal k x rule ht hb hsc hs hc hf).1 r cw minArea
  rcases hr with rfl | rfl <;> exact h

/-! ### examples -/

/-- A pentagon with a vertex inside an edge. -/
def exStraight : List Pt := [⟨0, 0⟩, ⟨4, 0⟩, ⟨10, 0⟩, ⟨10, 10⟩, ⟨0, 10⟩]

/-- It has no spikes; its corners are those of the square; it starts elsewhere, backwards and without the extra vertex as
required above. -/
example : NoSpikes exStraight ∧ corners exStraight = [⟨10, 0⟩, ⟨10, 10⟩, ⟨0, 10⟩, ⟨0, 0⟩] ∧
    SameContour exStraight [⟨0, 0⟩, ⟨10, 0⟩, ⟨10, 10⟩, ⟨0, 10⟩] ∧ exStraight.rotate 2 ≠ exStraight ∧
    NoSpikes exStraight.reverse :=
  ⟨by decide +kernel, by decide +kernel, C55_extra_vertex (by decide +kernel) (by decide +kernel), by decide +kernel,
    by decide +kernel⟩

/-- The contracts hold. -/
example : exConfig.tree.Ok ∧ exConfig.tree.Blind invert ∧ exConfig.scan.Ok :=
  ⟨bruteTree_ok, ⟨fun _ => rfl, fun l => listPairs_mapC l⟩, listScanOracle_ok⟩

/-- A whole run: reversed input, `Positive` against `Negative`; with the same rule the result is another one. -/
example : overlayCustom exConfig exExternals .union .positive false 0
      (overlaySegments [exStraight.reverse] []) = overlayCustom exConfig exExternals .union .negative false 0
      (overlaySegments [exStraight] []) ∧
    overlayCustom exConfig exExternals .union .positive false 0 (overlaySegments [exStraight.reverse] []) ≠
    overlayCustom exConfig exExternals .union .positive false 0 (overlaySegments [exStraight] []) := by
  decide +kernel

/-- A contour that consists of two spikes. -/
def exSpikes : List Pt := [⟨0, 2⟩, ⟨2, 2⟩, ⟨0, 2⟩, ⟨0, 0⟩, ⟨2, 0⟩, ⟨0, 0⟩]

/-- Without the hypothesis the start does matter: this contour registers other edges when it starts at another
vertex, although it is not closed explicitly (the regions agree, C07). -/
theorem C55_spike_start : ¬ NoSpikes exSpikes ∧ NotClosedExplicitly exSpikes ∧ NotClosedExplicitly (exSpikes.rotate 1) ∧
    ¬ (appendContour .subject exSpikes : List (Seg CountBool)).Perm (appendContour .subject (exSpikes.rotate 1)) := by
  unfold NotClosedExplicitly
  decide +kernel

end IOverlay
