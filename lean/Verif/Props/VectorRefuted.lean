/-
C46: examples, and what does not hold of the vector extraction.
-/
import Verif.Props.Vector

namespace IOverlay

/-- A sort by `a.x`. -/
def sortByX (l : List IdSeg) : List IdSeg := l.insertionSort fun s t => s.a.x ≤ t.a.x

theorem sortByX_ok (l : List IdSeg) : (sortByX l).Perm l ∧ (sortByX l).Pairwise fun s t => s.a.x ≤ t.a.x := by
  refine ⟨List.perm_insertionSort _ l, ?_⟩
  have : IsTrans IdSeg (fun s t : IdSeg => s.a.x ≤ t.a.x) := ⟨fun a b c h1 h2 => le_trans h1 h2⟩
  have : Std.Total (fun s t : IdSeg => s.a.x ≤ t.a.x) := ⟨fun a b => le_total a.a.x b.a.x⟩
  exact List.pairwise_insertionSort _ l

/-! ### the theorems are about something -/

/-- The intersection of two crossing squares, as directed edges with flags: inside both on the right
(`0b1010`), and on the left inside the square not bounded there. -/
example : intoShapeVectors exConfig exRaw sortByX .nonZero .intersect
    (overlaySegments crossingSquares.1 crossingSquares.2) =
    some [[[⟨⟨5, 5⟩, ⟨5, 10⟩, 0b1011#8⟩, ⟨⟨5, 10⟩, ⟨10, 10⟩, 0b1110#8⟩, ⟨⟨10, 10⟩, ⟨10, 5⟩, 0b1110#8⟩,
      ⟨⟨10, 5⟩, ⟨5, 5⟩, 0b1011#8⟩]]] := by
  decide +kernel

/-- A square with a square hole. -/
theorem exVectorHole : intoShapeVectors exConfig exRaw sortByX .evenOdd .subject
    (overlaySegments [sq 0 0 30 30, sq 10 10 20 20] []) =
    some [[[⟨⟨0, 0⟩, ⟨0, 30⟩, 2#8⟩, ⟨⟨0, 30⟩, ⟨30, 30⟩, 2#8⟩, ⟨⟨30, 30⟩, ⟨30, 0⟩, 2#8⟩, ⟨⟨30, 0⟩, ⟨0, 0⟩, 2#8⟩],
      [⟨⟨10, 20⟩, ⟨10, 10⟩, 2#8⟩, ⟨⟨10, 10⟩, ⟨20, 10⟩, 2#8⟩, ⟨⟨20, 10⟩, ⟨20, 20⟩, 2#8⟩, ⟨⟨20, 20⟩, ⟨10, 20⟩, 2#8⟩]]] := by
  decide +kernel

/-- The separate edges of two crossing squares. -/
example : (intoSeparateVectors exConfig exRaw .nonZero (overlaySegments crossingSquares.1 crossingSquares.2)).map
    List.length = some 12 := by
  decide +kernel

/-- Two triangles touching in their leftmost vertex: four edges going right from it. -/
theorem exVectorFour : ∃ links, buildBoolean (isIncluded .union) .nonZero exConfig.st exConfig.sr exConfig.tree
      exConfig.scan exConfig.fuel (overlaySegments [[⟨0, 0⟩, ⟨10, -8⟩, ⟨10, -6⟩], [⟨0, 0⟩, ⟨10, 0⟩, ⟨10, 2⟩]] []) = some links ∧
    (links.filter fun l => decide (l.a = ⟨0, 0⟩)).length = 4 ∧ (∀ p, (links.filter fun l => decide (l.a = p)).length ≤ 4) ∧
    (intoShapeVectors exConfig exRaw sortByX .nonZero .union
      (overlaySegments [[⟨0, 0⟩, ⟨10, -8⟩, ⟨10, -6⟩], [⟨0, 0⟩, ⟨10, 0⟩, ⟨10, 2⟩]] [])).map (fun s => s.map fun p => p.map toPath) =
      some [[[⟨0, 0⟩, ⟨10, 2⟩, ⟨10, 0⟩]], [[⟨0, 0⟩, ⟨10, -6⟩, ⟨10, -8⟩]]] := by
  refine ⟨[⟨⟨0, 0⟩, 0, ⟨10, -8⟩, 0, 1#8⟩, ⟨⟨0, 0⟩, 0, ⟨10, -6⟩, 0, 2#8⟩, ⟨⟨0, 0⟩, 0, ⟨10, 0⟩, 0, 1#8⟩,
    ⟨⟨0, 0⟩, 0, ⟨10, 2⟩, 0, 2#8⟩, ⟨⟨10, -8⟩, 0, ⟨10, -6⟩, 0, 1#8⟩, ⟨⟨10, 0⟩, 0, ⟨10, 2⟩, 0, 1#8⟩],
    by decide +kernel, by decide, ?_, by decide +kernel⟩
  intro p
  by_cases h : p = ⟨0, 0⟩
  · subst h; decide
  · simp only [List.filter_cons, List.filter_nil, Ne.symm h, decide_false]
    by_cases h1 : (⟨10, -8⟩ : Pt) = p <;> by_cases h2 : (⟨10, 0⟩ : Pt) = p <;> simp [h1, h2]

/-! ### counterexamples -/

/-- Six triangles; (0,0) and (50,600) are the leftmost vertex of three of them each. -/
def lostTriangles : List (List Pt) :=
  [[⟨0, 0⟩, ⟨100, 500⟩, ⟨110, 0⟩], [⟨0, 0⟩, ⟨111, 2000⟩, ⟨111, 2010⟩], [⟨0, 0⟩, ⟨111, 2020⟩, ⟨111, 2030⟩],
    [⟨50, 600⟩, ⟨100, 500⟩, ⟨120, 1000⟩], [⟨50, 600⟩, ⟨121, 1100⟩, ⟨121, 1110⟩], [⟨50, 600⟩, ⟨121, 1120⟩, ⟨121, 1130⟩]]

/-- C46 fails when more than four edges of the result go right from a point: the loop moves on to the next
edge after every path, so a whole triangle of a union of triangles is never found (and another one is taken
for a hole). -/
theorem C46_refuted_lost : (Assumed exConfig exRaw ∧ BindAssumed exRaw) ∧ FragFor exConfig lostTriangles [] ∧
    (∃ v, (intoGraph exConfig exRaw .nonZero (overlaySegments lostTriangles [])).bind (vectorPaths · .union) = some v ∧
      (∀ p ∈ v.shapes.flatten ++ v.holes, ∀ e ∈ p,
        e.ends ≠ (⟨0, 0⟩, ⟨100, 500⟩) ∧ e.ends ≠ (⟨0, 0⟩, ⟨110, 0⟩) ∧ e.ends ≠ (⟨100, 500⟩, ⟨110, 0⟩))) ∧
    ∃ shapes, overlayCustom exConfig exRaw .union .nonZero true 0 (overlaySegments lostTriangles []) = some shapes ∧
      [⟨0, 0⟩, ⟨100, 500⟩, ⟨110, 0⟩] ∈ shapes.flatten := by
  refine ⟨exRaw_assumed, FragOk.list _ _, ⟨⟨[
      [[⟨⟨0, 0⟩, ⟨111, 2030⟩, 2#8⟩, ⟨⟨111, 2030⟩, ⟨111, 2020⟩, 2#8⟩, ⟨⟨111, 2020⟩, ⟨0, 0⟩, 2#8⟩]],
      [[⟨⟨0, 0⟩, ⟨111, 2010⟩, 2#8⟩, ⟨⟨111, 2010⟩, ⟨111, 2000⟩, 2#8⟩, ⟨⟨111, 2000⟩, ⟨0, 0⟩, 2#8⟩]],
      [[⟨⟨50, 600⟩, ⟨121, 1130⟩, 2#8⟩, ⟨⟨121, 1130⟩, ⟨121, 1120⟩, 2#8⟩, ⟨⟨121, 1120⟩, ⟨50, 600⟩, 2#8⟩]],
      [[⟨⟨50, 600⟩, ⟨121, 1110⟩, 2#8⟩, ⟨⟨121, 1110⟩, ⟨121, 1100⟩, 2#8⟩, ⟨⟨121, 1100⟩, ⟨50, 600⟩, 2#8⟩]]],
      [[⟨⟨100, 500⟩, ⟨50, 600⟩, 2#8⟩, ⟨⟨50, 600⟩, ⟨120, 1000⟩, 2#8⟩, ⟨⟨120, 1000⟩, ⟨100, 500⟩, 2#8⟩]]⟩,
    by decide +kernel, by decide +kernel⟩, ⟨[
      [[⟨0, 0⟩, ⟨111, 2030⟩, ⟨111, 2020⟩]], [[⟨0, 0⟩, ⟨111, 2010⟩, ⟨111, 2000⟩]], [[⟨0, 0⟩, ⟨100, 500⟩, ⟨110, 0⟩]],
      [[⟨50, 600⟩, ⟨121, 1130⟩, ⟨121, 1120⟩]], [[⟨50, 600⟩, ⟨121, 1110⟩, ⟨121, 1100⟩]], [[⟨50, 600⟩, ⟨120, 1000⟩, ⟨100, 500⟩]]],
    by decide +kernel, by decide⟩⟩

/-- C46 fails when a hole has to be attached to one of several shapes: the edges offered to the binder are the
upper edges of the shapes instead of the lower ones (the test on `a.x < b.x` is right for points listed from
`b` to `a`). With nothing above the hole but its own shape the binder finds no edge and panics. -/
theorem C46_refuted_panic : (Assumed exConfig exRaw ∧ BindAssumed exRaw) ∧
    intoShapeVectors exConfig exRaw sortByX .evenOdd .union
      (overlaySegments [sq 0 0 30 30, sq 10 10 20 20, sq 50 0 60 10] []) = none ∧
    overlayCustom exConfig exRaw .union .evenOdd true 0
      (overlaySegments [sq 0 0 30 30, sq 10 10 20 20, sq 50 0 60 10] []) =
      some [[[⟨0, 0⟩, ⟨0, 30⟩, ⟨30, 30⟩, ⟨30, 0⟩], [⟨10, 20⟩, ⟨10, 10⟩, ⟨20, 10⟩, ⟨20, 20⟩]],
        [[⟨50, 0⟩, ⟨50, 10⟩, ⟨60, 10⟩, ⟨60, 0⟩]]] := by
  refine ⟨exRaw_assumed, by decide +kernel, by decide +kernel⟩

/-- C46 fails in the same way with a second shape below: the hole of the upper square becomes a hole of the
lower square. -/
theorem C46_refuted_parent : (Assumed exConfig exRaw ∧ BindAssumed exRaw) ∧ ∃ shapes,
    intoShapeVectors exConfig exRaw sortByX .evenOdd .union
      (overlaySegments [sq 0 0 30 30, sq 10 10 20 20, sq 0 (-40) 30 (-10)] []) = some shapes ∧
    ∃ sh ∈ shapes, ∃ outer holes, sh = outer :: holes ∧
      ∃ c ∈ holes, ∃ q, polyWind (toPath c) q ≠ 0 ∧ polyWind (toPath outer) q = 0 := by
  refine ⟨exRaw_assumed, [[[⟨⟨0, -40⟩, ⟨0, -10⟩, 2#8⟩, ⟨⟨0, -10⟩, ⟨30, -10⟩, 2#8⟩, ⟨⟨30, -10⟩, ⟨30, -40⟩, 2#8⟩,
        ⟨⟨30, -40⟩, ⟨0, -40⟩, 2#8⟩],
      [⟨⟨10, 20⟩, ⟨10, 10⟩, 2#8⟩, ⟨⟨10, 10⟩, ⟨20, 10⟩, 2#8⟩, ⟨⟨20, 10⟩, ⟨20, 20⟩, 2#8⟩, ⟨⟨20, 20⟩, ⟨10, 20⟩, 2#8⟩]],
      [[⟨⟨0, 0⟩, ⟨0, 30⟩, 2#8⟩, ⟨⟨0, 30⟩, ⟨30, 30⟩, 2#8⟩, ⟨⟨30, 30⟩, ⟨30, 0⟩, 2#8⟩, ⟨⟨30, 0⟩, ⟨0, 0⟩, 2#8⟩]]],
    by decide +kernel, _, List.mem_cons_self, _, _, rfl, _, List.mem_singleton.2 rfl, ⟨15, 15⟩, ?_, ?_⟩ <;>
  · simp [toPath, polyWind, polyEdges, edgeWind, aboveLine]
    try norm_num

end IOverlay
