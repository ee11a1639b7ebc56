/-
C59 (no contour without area) and C60 (areas of results).
-/
import Verif.Props.SliceShapes
import Verif.Props.Chain

namespace IOverlay

/-- Outer contour and holes have areas of opposite signs; none is empty. Positive is counterclockwise. -/
def SignedShape (cw : Bool) (sh : List (List Pt)) : Prop :=
  ∃ outer holes, sh = outer :: holes ∧ 0 < outerTurn cw * doubleArea outer ∧ ∀ c ∈ holes, outerTurn cw * doubleArea c < 0

theorem OrientedShape.signed {cw : Bool} {sh : List (List Pt)} (h : OrientedShape cw sh) : SignedShape cw sh := by
  obtain ⟨outer, holes, rfl, h1, h2⟩ := h
  refine ⟨outer, holes, rfl, ?_, fun c hc => ?_⟩
  · unfold outerTurn at *
    cases cw
    · have := windsOnce_area.1 h1; simpa using this
    · have := windsOnce_area.2 h1; simp; omega
  · have := h2 c hc
    unfold outerTurn at *
    cases cw
    · have := windsOnce_area.2 this; simp; omega
    · have := windsOnce_area.1 this; simp; omega

/-- C59 (one-shot overlay): every outer contour has an area, of the sign of the requested direction, and every hole has
one of the opposite sign; in particular no returned contour has area zero. -/
theorem C59_overlay (k : Config) (x : Externals) (ha : Assumed k x) (r : OverlayRule) (rule : FillRule)
    (cw : Bool) (subj clip : List (List Pt)) (hf : FragFor k subj clip) (shapes : List (List (List Pt)))
    (h : overlayCustom k x r rule cw 0 (overlaySegments subj clip) = some shapes) :
    ∀ sh ∈ shapes, SignedShape cw sh :=
  fun sh hsh => ((C41_overlay k x ha r rule cw subj clip hf shapes h).1 sh hsh).signed

/-- C59 (prebuilt graph). -/
theorem C59_graph (k : Config) (x : Externals) (ha : Assumed k x) (r : OverlayRule) (rule : FillRule)
    (cw : Bool) (subj clip : List (List Pt)) (hf : FragFor k subj clip) (g : Graph) (shapes : List (List (List Pt)))
    (hg : intoGraph k x rule (overlaySegments subj clip) = some g)
    (h : extractShapesCustom x g r cw 0 = some shapes) : ∀ sh ∈ shapes, SignedShape cw sh :=
  fun sh hsh => ((C41_graph k x ha r rule cw subj clip hf g shapes hg h).1 sh hsh).signed

/-- C59 (slices). -/
theorem C59_slice (x : Externals) (order : List Pt → Bool) (ho : OrderOk order) (rule : FillRule) (st : Strategy)
    (sr : SnapRadius) (tree : TreeOracle CountStr) (ht : tree.Ok) (sc : ScanOracle CountStr) (hsc : sc.Ok) (fuel : Nat)
    (hE : EndSort x.sortE) (shape paths contours : List (List Pt))
    (hf : FragOk st sr (stringSegments shape paths contours)) (r : List (Seg CountStr))
    (hr : nodedEdges st sr tree fuel (stringSegments shape paths contours) = some r)
    (hn : st = .list ∨ 2 < r.length) (shapes : List (List (List Pt)))
    (h : sliceBy x order rule st sr tree sc fuel shape paths contours = some shapes) :
    ∀ sh ∈ shapes, SignedShape false sh :=
  fun sh hsh => ((C58_slice_shapes x order ho rule st sr tree ht sc hsc fuel hE shape paths contours hf r hr hn shapes
    h).1 sh hsh).signed

/-! ### areas of different results -/

/-- The results of all operations for one input, by overlay rule, each computed in one shot or from a prebuilt graph. -/
def Results (k : Config) (x : Externals) (rule : FillRule) (cw : Bool) (subj clip : List (List Pt))
    (res : OverlayRule → List (List (List Pt))) : Prop :=
  ∀ r, IsResult k x r rule cw 0 subj clip (res r)

section
variable {k : Config} {x : Externals} (ha : Assumed k x) {rule : FillRule} {cw : Bool} {subj clip : List (List Pt)}
  (hf : FragFor k subj clip) {res : OverlayRule → List (List (List Pt))}
include ha hf

theorem results_wind (h : Results k x rule cw subj clip res) :
    ∃ a b : QPt → Bool, ∀ r q, polysWind (res r).flatten q = outerTurn cw * if r.op (a q) (b q) then 1 else 0 := by
  have key := fun r => (h r).winding ha hf
  obtain ⟨segs, h1, -⟩ := key .union
  refine ⟨fun q => rule.inside (segsWind CountBool.subj segs q), fun q => rule.inside (segsWind CountBool.clip segs q), ?_⟩
  intro r q
  obtain ⟨segs', h1', h2⟩ := key r
  rw [h1] at h1'
  obtain rfl := Option.some.inj h1'
  exact h2 q

/-- C60 (inclusion and exclusion): the areas of the results of the different operations on the same input, whatever
rounding the operations did, add up as the areas of sets do (twice the area, negative if clockwise). -/
theorem C60_areas (h : Results k x rule cw subj clip res) :
    let area := fun r => totalArea (res r).flatten
    area .union + area .intersect = area .subject + area .clip ∧
    area .difference + area .intersect = area .subject ∧
    area .inverseDifference + area .intersect = area .clip ∧
    area .xor = area .difference + area .inverseDifference := by
  obtain ⟨a, b, hw⟩ := results_wind ha hf h
  have ap : ∀ l m : List (List Pt), totalArea (l ++ m) = totalArea l + totalArea m := by
    intro l m; unfold totalArea; simp
  have key : ∀ l m : List (List Pt), (∀ q, polysWind l q = polysWind m q) → totalArea l = totalArea m := fun l m h => area_congr h
  refine ⟨?_, ?_, ?_, ?_⟩
  · have := key ((res .union).flatten ++ (res .intersect).flatten) ((res .subject).flatten ++ (res .clip).flatten) (by
      intro q
      simp only [polysWind_append, hw]
      unfold OverlayRule.op
      cases a q <;> cases b q <;> simp)
    rwa [ap, ap] at this
  · have := key ((res .difference).flatten ++ (res .intersect).flatten) (res .subject).flatten (by
      intro q
      simp only [polysWind_append, hw]
      unfold OverlayRule.op
      cases a q <;> cases b q <;> simp)
    rwa [ap] at this
  · have := key ((res .inverseDifference).flatten ++ (res .intersect).flatten) (res .clip).flatten (by
      intro q
      simp only [polysWind_append, hw]
      unfold OverlayRule.op
      cases a q <;> cases b q <;> simp)
    rwa [ap] at this
  · have := key (res .xor).flatten ((res .difference).flatten ++ (res .inverseDifference).flatten) (by
      intro q
      simp only [polysWind_append, hw]
      unfold OverlayRule.op
      cases a q <;> cases b q <;> simp)
    rwa [ap] at this

/-- C60 (monotonicity): a result whose rule implies another rule has no larger area, and has the same area only if both
results cover the same points. -/
theorem C60_mono (h : Results k x rule cw subj clip res) (r r' : OverlayRule)
    (hr : ∀ a b, r.op a b = true → r'.op a b = true) :
    0 ≤ outerTurn cw * totalArea (res r).flatten ∧
    outerTurn cw * totalArea (res r).flatten ≤ outerTurn cw * totalArea (res r').flatten ∧
    (totalArea (res r).flatten = totalArea (res r').flatten →
      ∀ q, polysWind (res r).flatten q = polysWind (res r').flatten q) := by
  obtain ⟨a, b, hw⟩ := results_wind ha hf h
  have hle : ∀ q, outerTurn cw * polysWind (res r).flatten q ≤ outerTurn cw * polysWind (res r').flatten q := by
    intro q
    rw [hw, hw]
    have := hr (a q) (b q)
    unfold outerTurn
    revert this
    generalize r.op (a q) (b q) = u
    generalize r'.op (a q) (b q) = v
    clear hw h
    cases u <;> cases v <;> cases cw <;> simp
  have h0 : ∀ q, 0 ≤ outerTurn cw * polysWind (res r).flatten q := by
    intro q
    rw [hw]
    unfold outerTurn
    cases r.op (a q) (b q) <;> cases cw <;> simp
  have e : ∀ q, polysWind [] q = 0 := fun q => rfl
  have e' : totalArea [] = 0 := rfl
  have t : ∀ n, outerTurn cw * n = if cw then -n else n := by intro n; unfold outerTurn; cases cw <;> simp
  simp only [t] at hle h0 ⊢
  cases cw
  · simp only [Bool.false_eq_true, if_false] at *
    have m := area_mono hle
    have m0 := (area_mono (l := []) (m := (res r).flatten) (by intro q; rw [e]; exact h0 q)).1
    rw [e'] at m0
    refine ⟨m0, m.1, fun heq q => ?_⟩
    by_contra hne
    have := m.2 ⟨q, lt_of_le_of_ne (hle q) hne⟩
    omega
  · simp only [if_true] at *
    have m := area_mono (l := (res r').flatten) (m := (res r).flatten) (fun q => by have := hle q; omega)
    have m0 := (area_mono (l := (res r).flatten) (m := []) (by intro q; rw [e]; have := h0 q; omega)).1
    rw [e'] at m0
    refine ⟨by omega, by have := m.1; omega, fun heq q => ?_⟩
    by_contra hne
    have := m.2 ⟨q, by have := hle q; omega⟩
    omega

/-- C60 (against the input): if the given edges cross in whole points only and the contours of the subject wind at most
once, counterclockwise, around any point, the area of the subject's result is that of the subject; so are the areas of
difference and intersection together. -/
theorem C60_input (h : Results k x rule cw subj clip res)
    (hns : ∀ c ∈ subj, NotClosedExplicitly c) (hnc : ∀ c ∈ clip, NotClosedExplicitly c)
    (hin : ∀ c ∈ subj ++ clip, ∀ p ∈ c, InRange p) (hw : WholeCrossings ((subj ++ clip).flatMap polyEdges))
    (hone : ∀ q, polysWind subj q = if rule.inside (polysWind subj q) then 1 else 0) :
    totalArea (res .subject).flatten = outerTurn cw * totalArea subj ∧
    totalArea (res .difference).flatten + totalArea (res .intersect).flatten = outerTurn cw * totalArea subj := by
  have h1 : totalArea (res .subject).flatten = outerTurn cw * totalArea subj := by
    obtain ⟨segs, e1, e2⟩ := (h .subject).winding ha hf
    have e : ∀ q, polysWind (res .subject).flatten q = outerTurn cw * polysWind subj q := by
      intro q
      have := noded_whole ha.tree hf hns hnc hin hw e1 q
      rw [e2, this.1, this.2]
      conv_rhs => rw [hone]
      rfl
    cases cw
    · rw [area_congr (m := subj) (fun q => by rw [e]; unfold outerTurn; simp)]
      unfold outerTurn; simp
    · have := area_congr (l := (res .subject).flatten ++ subj) (m := []) (fun q => by
        rw [polysWind_append, e]; unfold outerTurn; simp [polysWind])
      have ap : ∀ l m : List (List Pt), totalArea (l ++ m) = totalArea l + totalArea m := by
        intro l m; unfold totalArea; simp
      rw [ap, show totalArea [] = 0 from rfl] at this
      unfold outerTurn; simp; omega
  exact ⟨h1, (C60_areas ha hf h).2.1.trans h1⟩

end

/-- C60 (again): a result simplified again with `EvenOdd` or `NonZero` has the same area. -/
theorem C60_again (k k' : Config) (x x' : Externals) (ha : Assumed k x) (ha' : Assumed k' x') (hc : CleanAssumed x)
    (r : OverlayRule) (rule rule' : FillRule) (hr : rule' = .evenOdd ∨ rule' = .nonZero) (cw : Bool)
    (subj clip : List (List Pt)) (hf : FragFor k subj clip) (hin : ∀ c ∈ subj ++ clip, ∀ p ∈ c, InRange p)
    (shapes shapes' : List (List (List Pt))) (hf' : FragFor k' shapes.flatten [])
    (h : IsResult k x r rule cw 0 subj clip shapes)
    (h' : IsResult k' x' .subject rule' cw 0 shapes.flatten [] shapes') :
    totalArea shapes'.flatten = totalArea shapes.flatten :=
  area_congr (C57_idempotent k k' x x' ha ha' hc r rule rule' hr cw subj clip hf hin shapes shapes' hf' h h')

/-! ### examples -/

/-- The results for two crossing squares of area 100 (by rule); the overlap has area 25. -/
def exResults (r : OverlayRule) : List (List (List Pt)) :=
  (overlayCustom exConfig exRaw r .nonZero false 0 (overlaySegments crossingSquares.1 crossingSquares.2)).getD []

/-- The hypotheses of the theorems above are met. -/
example : Assumed exConfig exRaw ∧ FragFor exConfig crossingSquares.1 crossingSquares.2 ∧
    Results exConfig exRaw .nonZero false crossingSquares.1 crossingSquares.2 exResults ∧
    (fun r => totalArea (exResults r).flatten) = fun r => match r with
      | .subject => 200 | .clip => 200 | .intersect => 50 | .union => 350 | .difference => 150 | .inverseDifference => 150
      | .xor => 300 := by
  refine ⟨exRaw_assumed.1, FragOk.list _ _, ?_, ?_⟩
  · intro r
    refine Or.inl ?_
    cases r <;> decide +kernel
  · funext r
    cases r <;> decide +kernel

/-- The last hypothesis of `C60_input` and of `C58_slice_area` is met by the first square. -/
example (q : QPt) : polysWind [[⟨0, 10⟩, ⟨0, 0⟩, ⟨10, 0⟩, ⟨10, 10⟩]] q =
    if FillRule.nonZero.inside (polysWind [[⟨0, 10⟩, ⟨0, 0⟩, ⟨10, 0⟩, ⟨10, 10⟩]] q) then 1 else 0 :=
  result_once exConfig exRaw exRaw_assumed.1 .subject .nonZero [[⟨0, 10⟩, ⟨0, 0⟩, ⟨10, 0⟩, ⟨10, 10⟩]] []
    (FragOk.list _ _) [[[⟨0, 10⟩, ⟨0, 0⟩, ⟨10, 0⟩, ⟨10, 10⟩]]] (by decide +kernel) q

end IOverlay
