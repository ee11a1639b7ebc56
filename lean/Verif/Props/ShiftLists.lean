/-
C65 for the lists returned by slicing and clipping: contour for contour, line for line, point for point.
-/
import Verif.ShiftLines
import Verif.Props.ShiftShapes

namespace IOverlay
variable (v : Pt)

theorem fillOfStr_shift (rule : FillRule) (segs : List (Seg CountStr)) (s : Seg CountStr) :
    fillOfStr rule (segs.map (·.shift v)) (s.shift v) = fillOfStr rule segs s := by
  unfold fillOfStr
  rw [botW_shift]
  rfl

/-- The links of the moved lines are the links, moved. -/
theorem buildString_shift {inc : Fill → Bool} {rule : FillRule} {st st' : Strategy} {sr : SnapRadius}
    {tree tree' : TreeOracle CountStr} (ht : tree.Ok) (ht' : tree'.Ok) {sc sc' : ScanOracle CountStr} (hsc : sc.Ok) (hsc' : sc'.Ok)
    {fuel fuel' : Nat} {shape paths contours : List (List Pt)} (hf : FragOk st sr (stringSegments shape paths contours))
    (hf' : FragOk st' sr (stringSegments (moved v shape) (moved v paths) (moved v contours))) {r r' : List (Seg CountStr)}
    (h : nodedEdges st sr tree fuel (stringSegments shape paths contours) = some r) (hn : st = .list ∨ 2 < r.length)
    (h' : nodedEdges st' sr tree' fuel' (stringSegments (moved v shape) (moved v paths) (moved v contours)) = some r')
    (hn' : st' = .list ∨ 2 < r'.length) :
    ∃ links, buildString inc rule st sr tree sc fuel (stringSegments shape paths contours) = some links ∧
      buildString inc rule st' sr tree' sc' fuel' (stringSegments (moved v shape) (moved v paths) (moved v contours)) =
        some (links.map (Link.shift v)) := by
  have e : r' = r.map (·.shift v) := C65_noded_lines v ht ht' hf hf' h hn h' hn'
  obtain ⟨p1, p2⟩ := string_planar ht hf h hn
  obtain ⟨q1, q2⟩ := string_planar ht' hf' h' hn'
  refine ⟨_, buildString_eq hsc h p1 p2, ?_⟩
  rw [buildString_eq hsc' h' q1 q2, e, List.filter_map, List.map_map, List.map_map]
  simp only [Function.comp_def, fillOfStr_shift]
  rfl

/-- C65 (slicing, returned lists): the pieces of a moved shape cut by moved lines are the pieces of the given shape, moved: the same
shapes in the same order, with the same contours and starting points. -/
theorem C65_slice_lists {x x' : Externals} (hx : MovesWith v x x') {order order' : List Pt → Bool}
    (ho : ∀ c, order' (movedPath v c) = order c) (rule : FillRule) {st st' : Strategy} {sr : SnapRadius}
    {tree tree' : TreeOracle CountStr} (ht : tree.Ok) (ht' : tree'.Ok) {sc sc' : ScanOracle CountStr} (hsc : sc.Ok) (hsc' : sc'.Ok)
    {fuel fuel' : Nat} {shape paths contours : List (List Pt)} (hf : FragOk st sr (stringSegments shape paths contours))
    (hf' : FragOk st' sr (stringSegments (moved v shape) (moved v paths) (moved v contours))) {r r' : List (Seg CountStr)}
    (h : nodedEdges st sr tree fuel (stringSegments shape paths contours) = some r) (hn : st = .list ∨ 2 < r.length)
    (h' : nodedEdges st' sr tree' fuel' (stringSegments (moved v shape) (moved v paths) (moved v contours)) = some r')
    (hn' : st' = .list ∨ 2 < r'.length) :
    sliceBy x' order' rule st' sr tree' sc' fuel' (moved v shape) (moved v paths) (moved v contours) =
      (sliceBy x order rule st sr tree sc fuel shape paths contours).map fun shapes => shapes.map (moved v) := by
  obtain ⟨links, h1, h2⟩ := buildString_shift v (inc := fun _ => true) (rule := rule) ht ht' hsc hsc' hf hf' h hn h' hn'
  unfold sliceBy stringGraph
  rw [h1, h2, Option.bind_some, Option.bind_some, graphNew_shift v hx.sortE]
  cases Graph.new x.sortE links with
  | none => rfl
  | some g =>
    simp only [Option.map_some, Option.bind_some]
    rw [sliceShapes_shift hx ho]
    rfl

/-- C65 (clipping, returned lists): the lines returned for a moved shape and moved lines are the lines returned for the given ones,
moved: the same lines in the same order with the same points in the same direction. -/
theorem C65_clip_lists {sortE sortE' : List End → List End} (hE : ∀ l, sortE' (l.map (endShift v)) = (sortE l).map (endShift v))
    (clip : ClipRule) (rule : FillRule) {st st' : Strategy} {sr : SnapRadius} {tree tree' : TreeOracle CountStr} (ht : tree.Ok)
    (ht' : tree'.Ok) {sc sc' : ScanOracle CountStr} (hsc : sc.Ok) (hsc' : sc'.Ok) {fuel fuel' : Nat}
    {shape paths contours : List (List Pt)} (hf : FragOk st sr (stringSegments shape paths contours))
    (hf' : FragOk st' sr (stringSegments (moved v shape) (moved v paths) (moved v contours))) {r r' : List (Seg CountStr)}
    (h : nodedEdges st sr tree fuel (stringSegments shape paths contours) = some r) (hn : st = .list ∨ 2 < r.length)
    (h' : nodedEdges st' sr tree' fuel' (stringSegments (moved v shape) (moved v paths) (moved v contours)) = some r')
    (hn' : st' = .list ∨ 2 < r'.length) :
    clipLines clip rule st' sr tree' sc' fuel' sortE' (stringSegments (moved v shape) (moved v paths) (moved v contours)) =
      (clipLines clip rule st sr tree sc fuel sortE (stringSegments shape paths contours)).map (moved v) := by
  obtain ⟨links, h1, h2⟩ := buildString_shift v (inc := isClipIncluded clip) (rule := rule) ht ht' hsc hsc' hf hf' h hn h' hn'
  unfold clipLines
  rw [h1, h2, Option.bind_some, Option.bind_some, graphNew_shift v hE]
  cases Graph.new sortE links with
  | none => rfl
  | some g =>
    simp only [Option.map_some, Option.bind_some]
    rw [clipStringLines_shift]
    rfl

/-! ### examples -/

/-- Turning contours by the sign of their area does not depend on the position. -/
theorem exOrder_moves (c : List Pt) : exOrder (movedPath v c) = exOrder c := by
  unfold exOrder
  rw [doubleArea_shift]

/-- Lines through a triangle, with rounded crossings: `C65_slice_lists` gives the pieces of the triangle moved by (1001, -77). -/
example :
    let shape : List (List Pt) := [[⟨0, 0⟩, ⟨71, 0⟩, ⟨71, 50⟩]]
    let lines : List (List Pt) := [[⟨20, -30⟩, ⟨33, 40⟩], [⟨40, 20⟩, ⟨60, 10⟩, ⟨90, 41⟩]]
    sliceBy exRaw exOrder .nonZero .list ⟨0, 1⟩ (bruteTree CountStr) listScanOracle 2 (moved ⟨1001, -77⟩ shape)
        (moved ⟨1001, -77⟩ lines) (moved ⟨1001, -77⟩ []) =
      some ([[[⟨0, 0⟩, ⟨25, 0⟩, ⟨29, 21⟩]], [[⟨71, 0⟩, ⟨71, 21⟩, ⟨71, 50⟩, ⟨29, 21⟩, ⟨25, 0⟩]]].map (moved ⟨1001, -77⟩)) := by
  intro shape lines
  obtain ⟨s, h⟩ := Option.isSome_iff_exists.1 (show (nodedEdges .list ⟨0, 1⟩ (bruteTree CountStr) 2
    (stringSegments shape lines [])).isSome = true by decide +kernel)
  obtain ⟨s', h'⟩ := Option.isSome_iff_exists.1 (show (nodedEdges .list ⟨0, 1⟩ (bruteTree CountStr) 2
    (stringSegments (moved ⟨1001, -77⟩ shape) (moved ⟨1001, -77⟩ lines) (moved ⟨1001, -77⟩ []))).isSome = true by decide +kernel)
  have := C65_slice_lists ⟨1001, -77⟩ (exRaw_moves _) (exOrder_moves _) .nonZero bruteTree_ok bruteTree_ok listScanOracle_ok
    listScanOracle_ok (FragOk.list _ _) (FragOk.list _ _) h (.inl rfl) h' (.inl rfl)
  rw [show sliceBy exRaw exOrder .nonZero .list ⟨0, 1⟩ (bruteTree CountStr) listScanOracle 2 shape lines [] =
    some [[[⟨0, 0⟩, ⟨25, 0⟩, ⟨29, 21⟩]], [[⟨71, 0⟩, ⟨71, 21⟩, ⟨71, 50⟩, ⟨29, 21⟩, ⟨25, 0⟩]]] by decide +kernel] at this
  exact this

/-- The same for clipping. -/
example :
    let shape : List (List Pt) := [[⟨0, 0⟩, ⟨71, 0⟩, ⟨71, 50⟩]]
    let lines : List (List Pt) := [[⟨20, -30⟩, ⟨33, 40⟩], [⟨40, 20⟩, ⟨60, 10⟩, ⟨90, 41⟩]]
    clipLines ⟨false, true⟩ .nonZero .list ⟨0, 1⟩ (bruteTree CountStr) listScanOracle 2 exRaw.sortE
        (stringSegments (moved ⟨1001, -77⟩ shape) (moved ⟨1001, -77⟩ lines) (moved ⟨1001, -77⟩ [])) =
      some (moved ⟨1001, -77⟩ [[⟨25, 0⟩, ⟨29, 21⟩], [⟨40, 20⟩, ⟨60, 10⟩, ⟨71, 21⟩]]) := by
  intro shape lines
  obtain ⟨s, h⟩ := Option.isSome_iff_exists.1 (show (nodedEdges .list ⟨0, 1⟩ (bruteTree CountStr) 2
    (stringSegments shape lines [])).isSome = true by decide +kernel)
  obtain ⟨s', h'⟩ := Option.isSome_iff_exists.1 (show (nodedEdges .list ⟨0, 1⟩ (bruteTree CountStr) 2
    (stringSegments (moved ⟨1001, -77⟩ shape) (moved ⟨1001, -77⟩ lines) (moved ⟨1001, -77⟩ []))).isSome = true by decide +kernel)
  have := C65_clip_lists ⟨1001, -77⟩ (exRaw_moves _).sortE ⟨false, true⟩ .nonZero bruteTree_ok bruteTree_ok listScanOracle_ok
    listScanOracle_ok (FragOk.list _ _) (FragOk.list _ _) h (.inl rfl) h' (.inl rfl)
  rw [show clipLines ⟨false, true⟩ .nonZero .list ⟨0, 1⟩ (bruteTree CountStr) listScanOracle 2 exRaw.sortE
    (stringSegments shape lines []) = some [[⟨25, 0⟩, ⟨29, 21⟩], [⟨40, 20⟩, ⟨60, 10⟩, ⟨71, 21⟩]] by decide +kernel] at this
  exact this

end IOverlay
