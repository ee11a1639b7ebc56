/-
C62: with a constant snap radius (`Precision::ABSOLUTE`) the number of splitting rounds is not bounded by the number of
edges: a contour with four points needs as many rounds as its coordinates allow.
-/
import Verif.Rounds
import Verif.Overlay
import Verif.Props.Attach

namespace IOverlay
open WindingCount

/-- Merging does not lengthen a list. -/
theorem start_length {C : Type} [WindingCount C] (l : List (Seg C)) : (mergeIfNeeded (sortSegs l)).length ≤ l.length := by
  have nd : ((mergeIfNeeded (sortSegs l)).map Seg.x).Nodup := by
    rw [List.Nodup, List.pairwise_map]
    refine (start_sorted l).imp ?_
    intro s t h e
    exact Seg.lt_irrefl t ((Seg.lt_congr (congrArg XSeg.a e) (congrArg XSeg.b e) rfl rfl).1 h)
  have hs : (mergeIfNeeded (sortSegs l)).map Seg.x ⊆ l.map Seg.x := by
    intro x hx
    obtain ⟨s, h1, rfl⟩ := List.mem_map.1 hx
    obtain ⟨t, h2, h3, h4⟩ := mergeIfNeeded_edges _ s h1
    exact List.mem_map.2 ⟨t, (sortSegs_perm l).mem_iff.1 h2, by unfold Seg.x; rw [h3, h4]⟩
  simpa using (nd.subperm hs).length_le

/-- `Precision::ABSOLUTE`, core/solver.rs:41-44 (`start: 0, progression: 0`), as `SnapRadius::new` stores it. -/
def absolutePrecision : SnapRadius := ⟨0, 0⟩

/-- For every number `N` of rounds (up to a quarter of the coordinate range) there is a contour with four points, between
`y = -1` and `y = 1` and `x = 0` and `x = 2 N + 9`, for which splitting has not ended after `N` rounds. -/
theorem C62_rounds (N : Nat) (hN : 2 * N + 9 < 2 ^ 30) :
    ∃ contour : List Pt, contour.length = 4 ∧
      (∀ p ∈ contour, InRange p ∧ 0 ≤ p.x ∧ p.x ≤ 2 * N + 9 ∧ -1 ≤ p.y ∧ p.y ≤ 1) ∧
      ∀ (st : Strategy), st ≠ .frag → ∀ (tree : TreeOracle CountBool), tree.Ok →
        nodedEdges st absolutePrecision tree N (overlaySegments [contour] []) = none := by
  refine ⟨zigzag (2 * N + 8), rfl, ?_, ?_⟩
  · intro p hp
    simp only [zigzag, List.mem_cons, List.not_mem_nil, or_false] at hp
    unfold InRange
    rcases hp with rfl | rfl | rfl | rfl <;> simp only <;> norm_num at hN ⊢ <;> omega
  · intro st hst tree ht
    have z := zigzag_start (n := 2 * N + 8) (by omega)
    have e := zigzag_segments (n := 2 * N + 8) (by omega)
    have hlen := start_length (overlaySegments [zigzag (2 * N + 8)] [] : List (Seg CountBool))
    have h4 : (overlaySegments [zigzag (2 * N + 8)] [] : List (Seg CountBool)).length = 4 := by rw [e]; rfl
    have hne : (overlaySegments [zigzag (2 * N + 8)] [] : List (Seg CountBool)).isEmpty = false := by rw [e]; rfl
    have hr := fun mode => z.rounds (by norm_num at hN ⊢; omega) st ht N 2 _ mode (by norm_num) (by omega)
    have hf : isFragmentation st (mergeIfNeeded (sortSegs (overlaySegments [zigzag (2 * N + 8)] [] : List (Seg CountBool)))).length = false := by
      unfold isFragmentation
      rw [Bool.or_eq_false_iff, decide_eq_false_iff_not]
      exact ⟨by omega, by simpa using hst⟩
    unfold nodedEdges splitSegments absolutePrecision
    simp only [hne, hf, Bool.false_eq_true, if_false]
    split
    · exact hr .list
    · exact hr .tree

/-- Hence no number of rounds suffices for all contours with four points. -/
theorem C62_operation (r : OverlayRule) (rule : FillRule) (cw : Bool) (minArea : Nat) (k : Config) (x : Externals)
    (hst : k.st ≠ .frag) (ht : k.tree.Ok) (hsr : k.sr = absolutePrecision) (hN : 2 * k.fuel + 9 < 2 ^ 30) :
    ∃ contour : List Pt, contour.length = 4 ∧ (∀ p ∈ contour, InRange p) ∧
      overlayCustom k x r rule cw minArea (overlaySegments [contour] []) = none ∧
      intoGraph k x rule (overlaySegments [contour] []) = none := by
  obtain ⟨c, h1, h2, h3⟩ := C62_rounds k.fuel hN
  have h := h3 k.st hst k.tree ht
  have key : ∀ inc, buildBoolean inc rule k.st k.sr k.tree k.scan k.fuel (overlaySegments [c] []) = none := by
    intro inc
    unfold nodedEdges at h
    split at h
    · simp at h
    · rename_i hne
      unfold buildBoolean
      rw [if_neg hne, hsr, h]; rfl
  refine ⟨c, h1, fun p hp => (h2 p hp).1, ?_, ?_⟩
  · unfold overlayCustom; rw [key]; rfl
  · unfold intoGraph; rw [key]; rfl

/-- The hypotheses of `C62_operation` are met by the solver of the examples with this precision. -/
example : ({ exConfig with sr := absolutePrecision } : Config).st ≠ .frag ∧
    ({ exConfig with sr := absolutePrecision } : Config).tree.Ok ∧
    2 * ({ exConfig with sr := absolutePrecision } : Config).fuel + 9 < 2 ^ 30 :=
  ⟨by decide, exRaw_assumed.1.tree, by decide⟩

/-- The contour for `N = 3`: splitting takes six rounds. -/
example :
    (nodedEdges .list absolutePrecision exConfig.tree 5 (overlaySegments [zigzag 14] [] : List (Seg CountBool))).isSome = false ∧
    (nodedEdges .list absolutePrecision exConfig.tree 6 (overlaySegments [zigzag 14] [] : List (Seg CountBool))).isSome = true := by
  decide +kernel

end IOverlay
