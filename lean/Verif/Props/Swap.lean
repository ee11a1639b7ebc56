/-
Property C10: exchanging subject and clip.
-/
import Verif.Swap
import Verif.Props.Extract

namespace IOverlay

theorem isFillTop_swapFill (r : OverlayRule) (f : Fill) : isFillTop r.mirror (swapFill f) = isFillTop r f := by
  cases r <;> revert f <;> decide +kernel

/-- What the mirrored rule means: the same boolean operation with the arguments exchanged. -/
theorem mirror_op (r : OverlayRule) (a b : Bool) : r.mirror.op b a = r.op a b := by
  cases r <;> revert a b <;> decide

/-- C10: exchanging subject and clip contours and mirroring the rule (`Difference` becomes
`InverseDifference`, `Subject` becomes `Clip`, the other rules stay) gives exactly the same answer: the same shapes,
contours and points in the same order, for every fill rule, direction and minimal area (or both runs fail to
finish). The tree of the splitting phase must not look at the counts (it has no access to them in the code). -/
theorem C10_swap (k : Config) (x : Externals) (r : OverlayRule) (rule : FillRule) (clockwise : Bool) (minArea : Nat)
    (ht : k.tree.Ok) (hb : k.tree.Blind CountBool.swap) (hsc : k.scan.Ok) (subj clip : List (List Pt)) (hf : FragFor k subj clip) :
    overlayCustom k x r.mirror rule clockwise minArea (overlaySegments clip subj) =
      overlayCustom k x r rule clockwise minArea (overlaySegments subj clip) := by
  unfold overlayCustom
  rw [buildBoolean_swap (isIncluded_swap r) ht hb hsc _ _ _ hf, Option.bind_map]
  congr 1
  funext links
  simp only [Function.comp]
  rw [graphNew_mapF, Option.bind_map]
  congr 1
  funext g
  simp only [Function.comp]
  have e : (g.mapF swapFill).links.length = g.links.length := by unfold Graph.mapF; simp
  rw [e]
  exact extract_mapF g x (fun l _ => isFillTop_swapFill r l.fill) clockwise minArea _

/-- The symmetric rules. -/
theorem C10_symmetric (k : Config) (x : Externals) (r : OverlayRule) (hr : r = .union ∨ r = .intersect ∨ r = .xor)
    (rule : FillRule) (clockwise : Bool) (minArea : Nat) (ht : k.tree.Ok) (hb : k.tree.Blind CountBool.swap)
    (hsc : k.scan.Ok) (subj clip : List (List Pt)) (hf : FragFor k subj clip) :
    overlayCustom k x r rule clockwise minArea (overlaySegments clip subj) =
      overlayCustom k x r rule clockwise minArea (overlaySegments subj clip) := by
  have := C10_swap k x r rule clockwise minArea ht hb hsc subj clip hf
  rcases hr with rfl | rfl | rfl <;> exact this

/-- `Difference` and `InverseDifference`, `Subject` and `Clip`. -/
theorem C10_mirrored (k : Config) (x : Externals) (rule : FillRule) (clockwise : Bool) (minArea : Nat)
    (ht : k.tree.Ok) (hb : k.tree.Blind CountBool.swap) (hsc : k.scan.Ok) (subj clip : List (List Pt)) (hf : FragFor k subj clip) :
    overlayCustom k x .inverseDifference rule clockwise minArea (overlaySegments clip subj) =
      overlayCustom k x .difference rule clockwise minArea (overlaySegments subj clip) ∧
    overlayCustom k x .clip rule clockwise minArea (overlaySegments clip subj) =
      overlayCustom k x .subject rule clockwise minArea (overlaySegments subj clip) :=
  ⟨C10_swap k x .difference rule clockwise minArea ht hb hsc subj clip hf,
    C10_swap k x .subject rule clockwise minArea ht hb hsc subj clip hf⟩

theorem maskFilter_swapFill (r : OverlayRule) (f : Fill) (h : f < 16#8) :
    maskFilter r.mirror (swapFill f) = maskFilter r f := by
  cases r <;> revert f <;> decide +kernel

/-- The same for a graph built once and queried: the answers of the graph of the exchanged contours to the mirrored
rule are those of the original graph. -/
theorem C10_graph (k : Config) (x : Externals) (r : OverlayRule) (rule : FillRule) (clockwise : Bool) (minArea : Nat)
    (ht : k.tree.Ok) (hb : k.tree.Blind CountBool.swap) (hsc : k.scan.Ok) (hE : EndSort x.sortE)
    (subj clip : List (List Pt)) (hf : FragFor k subj clip) :
    ((intoGraph k x rule (overlaySegments clip subj)).bind fun g => extractShapesCustom x g r.mirror clockwise minArea) =
      (intoGraph k x rule (overlaySegments subj clip)).bind fun g => extractShapesCustom x g r clockwise minArea := by
  unfold intoGraph
  rw [buildBoolean_swap (inc := isGraphIncluded) (inc' := isGraphIncluded) (by decide) ht hb hsc _ _ _ hf, Option.bind_map]
  rcases hl : buildBoolean isGraphIncluded rule k.st k.sr k.tree k.scan k.fuel (overlaySegments subj clip) with _ | links
  · rfl
  · simp only [Option.bind_some, Function.comp]
    rw [graphNew_mapF]
    obtain ⟨segs, g, V, -, hg, -, hrun⟩ := runOk_graph ht hsc r hE hf hl
    rw [hg]
    simp only [Option.map_some, Option.bind_some]
    have hlt : ∀ l ∈ g.links, l.fill < 16#8 := by
      intro l hl
      obtain ⟨inc, F, e, -, -⟩ := hrun.filter
      have hm := List.mem_map_of_mem (f := fun l : Link => (l.a, l.b, l.fill)) hl
      rw [e] at hm
      obtain ⟨s, -, hs⟩ := List.mem_map.1 hm
      have : fillOf rule segs s = l.fill := by
        have := congrArg (fun t : Pt × Pt × Fill => t.2.2) hs
        exact this
      rw [← this]; exact fillOf_lt rule segs s
    unfold extractShapesCustom
    have e : (g.mapF swapFill).links.map (fun l => maskFilter r.mirror l.fill) = g.links.map fun l => maskFilter r l.fill := by
      unfold Graph.mapF
      rw [List.map_map]
      apply List.map_congr_left
      intro l hl
      exact maskFilter_swapFill r l.fill (hlt l hl)
    rw [e]
    exact extract_mapF g x (fun l _ => isFillTop_swapFill r l.fill) clockwise minArea _

/-- The hypotheses are met by concrete collections. -/
example : exConfig.tree.Ok ∧ exConfig.tree.Blind CountBool.swap ∧ exConfig.scan.Ok :=
  ⟨bruteTree_ok, ⟨fun _ => rfl, fun l => listPairs_mapC l⟩, listScanOracle_ok⟩

/-- A difference that is not symmetric: its mirror image is the inverse difference. -/
example : overlayCustom exConfig exExternals .inverseDifference .nonZero false 0
      (overlaySegments crossingSquares.2 crossingSquares.1) =
    some [[[⟨0, 10⟩, ⟨0, 0⟩, ⟨10, 0⟩, ⟨10, 5⟩, ⟨5, 5⟩, ⟨5, 10⟩]]] ∧
    overlayCustom exConfig exExternals .difference .nonZero false 0
      (overlaySegments crossingSquares.2 crossingSquares.1) ≠
    overlayCustom exConfig exExternals .difference .nonZero false 0
      (overlaySegments crossingSquares.1 crossingSquares.2) := by
  decide +kernel

end IOverlay
