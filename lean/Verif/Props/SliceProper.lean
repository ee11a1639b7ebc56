/-
C66: slicing always returns, and its shapes are proper: holes lie in their shape, holes and shapes do not overlap.
-/
import Verif.SliceAttach
import Verif.Props.Total

namespace IOverlay

section
variable {cw : Bool} {E : List Edge} {outer holes : List (List Pt)} (hp : Planar E) (hk : Keyed E)
  (h : Cells cw E outer holes)
include hp hk h

/-- Shapes joined from holes and outer contours with the same surroundings. -/
theorem Cells.proper {parents : List Nat}
    (hpar : ∀ (i : Nat) (H : List Pt), holes[i]? = some H → ∃ (p : Nat) (O : List Pt), parents[i]? = some p ∧ outer[p]? = some O ∧
        SameSide cw E H O) :
    ∀ sh ∈ attach (outer.map fun c => [c]) (holes.zip parents), ProperShape sh ∧ OrientedShape cw sh := by
  intro sh hsh
  obtain ⟨i, hi, rfl⟩ := List.mem_mapIdx.1 hsh
  rw [List.getElem_map]
  have hi' : i < outer.length := by simpa using hi
  have hnd : holes.Nodup := (List.nodup_append.1 h.nodup).2.1
  refine ⟨⟨outer[i], _, rfl, ?_, ?_⟩, ⟨outer[i], _, rfl, h.turn_outer _ (List.getElem_mem _), ?_⟩⟩
  · intro c hc' q hq
    obtain ⟨y, hy, rfl⟩ := List.mem_map.1 hc'
    rw [List.mem_filter] at hy
    obtain ⟨hy1, hy2⟩ := hy
    have hy2 : y.2 = i := by simpa using hy2
    obtain ⟨j, hj⟩ := List.getElem?_of_mem hy1
    rw [List.getElem?_zip_eq_some] at hj
    obtain ⟨j1, j2⟩ := hj
    obtain ⟨p, O, q1, q2, q3⟩ := hpar j y.1 j1
    rw [j2] at q1
    obtain rfl := Option.some.inj q1
    rw [hy2] at q2
    have hO : O = outer[i] := (List.getElem?_eq_some_iff.1 q2).2.symm
    rw [← hO]
    have := h.hole_inside hp hk (List.mem_of_getElem? j1) (List.mem_of_getElem? q2) q3 q hq
    exact this
  · change List.Pairwise _ (List.map _ (List.filter _ _))
    rw [List.pairwise_map]
    have hpw : (holes.zip parents).Pairwise fun y y' => y.2 = y'.2 → ∀ q, polyWind y.1 q = 0 ∨ polyWind y'.1 q = 0 := by
      rw [List.pairwise_iff_getElem]
      intro j j' hj hj' hlt heq q
      have g1 : (holes.zip parents)[j]? = some (holes.zip parents)[j] := List.getElem?_eq_getElem hj
      have g2 : (holes.zip parents)[j']? = some (holes.zip parents)[j'] := List.getElem?_eq_getElem hj'
      generalize (holes.zip parents)[j] = y at *
      generalize (holes.zip parents)[j'] = y' at *
      rw [List.getElem?_zip_eq_some] at g1 g2
      obtain ⟨a1, a2⟩ := g1
      obtain ⟨b1, b2⟩ := g2
      obtain ⟨p, O, q1, q2, q3⟩ := hpar j y.1 a1
      obtain ⟨p', O', q1', q2', q3'⟩ := hpar j' y'.1 b1
      rw [a2] at q1
      rw [b2] at q1'
      obtain rfl := Option.some.inj q1
      obtain rfl := Option.some.inj q1'
      rw [heq] at q2
      rw [q2] at q2'
      obtain rfl := Option.some.inj q2'
      have hne : y.1 ≠ y'.1 := by
        intro e
        have := (List.getElem?_inj (j := j') (List.getElem?_eq_some_iff.1 a1).1 hnd).1 (a1.trans (by rw [b1, e]))
        omega
      exact h.holes_disjoint hp hk (List.mem_of_getElem? a1) (List.mem_of_getElem? b1) hne
        (h.same_trans (List.mem_append_left _ (List.mem_of_getElem? q2)) q3 (Cells.same_symm q3')) q
    refine (hpw.filter _).imp_of_mem ?_
    intro y y' hy hy' hyy
    have a := (List.mem_filter.1 hy).2
    have b := (List.mem_filter.1 hy').2
    simp only [decide_eq_true_eq] at a b
    exact hyy (a.trans b.symm)
  · intro c hc'
    obtain ⟨y, hy, rfl⟩ := List.mem_map.1 hc'
    rw [List.mem_filter] at hy
    exact h.turn_holes _ (List.of_mem_zip hy.1).1

end

/-- Shapes winding at most once each and at most once together do not overlap. -/
theorem shapes_disjoint {t : Int} (ht : t ≠ 0) {shapes : List (List (List Pt))}
    (h1 : ∀ sh ∈ shapes, ∀ q, polysWind sh q = 0 ∨ polysWind sh q = t)
    (h2 : ∀ q, polysWind shapes.flatten q = 0 ∨ polysWind shapes.flatten q = t) :
    shapes.Pairwise fun sh sh' => ∀ q, polysWind sh q = 0 ∨ polysWind sh' q = 0 := by
  rw [List.pairwise_iff_getElem]
  intro i j hi hj hij q
  have hflat : polysWind shapes.flatten q = (shapes.map fun sh => polysWind sh q).sum := by
    clear h1 h2 hi hj
    unfold polysWind
    induction shapes with
    | nil => rfl
    | cons x L ih => rw [List.flatten_cons, List.map_append, List.sum_append, ih, List.map_cons, List.sum_cons]
  have := at_most_one ht (shapes.map fun sh => polysWind sh q)
    (by
      intro v hv
      obtain ⟨sh, hsh, rfl⟩ := List.mem_map.1 hv
      exact h1 sh hsh q)
    (by rw [← hflat]; exact h2 q)
  rw [List.pairwise_map, List.pairwise_iff_getElem] at this
  exact this i j hi hj hij

/-- What is claimed of the shapes returned by a slice: an outer contour and holes turning the other way, the holes inside
it and not overlapping; every point is covered at most once by a shape and by at most one shape; the points covered are
those inside. -/
structure SliceProper (cw : Bool) (inside : QPt → Bool) (shapes : List (List (List Pt))) : Prop where
  oriented : ∀ sh ∈ shapes, OrientedShape cw sh
  proper : ∀ sh ∈ shapes, ProperShape sh
  once : ∀ sh ∈ shapes, ∀ q, polysWind sh q = 0 ∨ polysWind sh q = outerTurn cw
  disjoint : shapes.Pairwise fun sh sh' => ∀ q, polysWind sh q = 0 ∨ polysWind sh' q = 0
  cover : ∀ q, polysWind shapes.flatten q = outerTurn cw * if inside q then 1 else 0

/-- C66 (either direction): whenever the splitting phase returns, the extraction of the slices succeeds and its shapes are
proper. -/
theorem C66_slice_extract (x : Externals) (hok : x.bind.Ok) (hs : SortsByA x.sortI) (order : List Pt → Bool) (ho : OrderOk order)
    (cw : Bool) (rule : FillRule) (st : Strategy) (sr : SnapRadius) (tree : TreeOracle CountStr) (ht : tree.Ok)
    (sc : ScanOracle CountStr) (hsc : sc.Ok) (fuel : Nat) (hE : EndSort x.sortE) (shape paths contours : List (List Pt))
    (hf : FragOk st sr (stringSegments shape paths contours)) (r : List (Seg CountStr))
    (hr : nodedEdges st sr tree fuel (stringSegments shape paths contours) = some r)
    (hn : st = .list ∨ 2 < r.length) :
    ∃ g shapes, stringGraph rule st sr tree sc fuel x.sortE (stringSegments shape paths contours) = some g ∧
      sliceShapes x order cw 0 g = some shapes ∧
      SliceProper cw (fun q => rule.inside (segsWind CountStr.subj r q)) shapes := by
  obtain ⟨hp, g, walks, outer, holes, h1, h2, h3, h4, h5⟩ := slice_pieces order ho cw rule st sr tree ht sc hsc fuel
    x.sortE hE shape paths contours hf r hr hn
  have hpE := planar_keys hp
  have hkE := keyed_keys r
  obtain ⟨parents, p1, p2, p3, p4⟩ := h5.attached hpE hkE hok hs
  obtain ⟨q1, -, q2⟩ := h4.shapes p3
  have hpr := h5.proper hpE hkE p4
  have hone := fun sh (hsh : sh ∈ attach (outer.map fun c => [c]) (holes.zip parents)) q =>
    proper_wind (hpr sh hsh).1 (hpr sh hsh).2 q
  have hcov : ∀ q, polysWind (attach (outer.map fun c => [c]) (holes.zip parents)).flatten q =
      outerTurn cw * if rule.inside (segsWind CountStr.subj r q) then 1 else 0 := by
    intro q
    rw [polysWind_perm q1, h4.wind]
  refine ⟨g, _, h1, ?_, q2, fun sh hsh => (hpr sh hsh).1, hone, shapes_disjoint (outerTurn_ne cw) hone ?_, hcov⟩
  · unfold sliceShapes
    rw [h2, Option.bind_some, h3, Option.bind_some]
    exact p3
  · intro q
    rw [hcov]
    split
    · right; simp
    · left; simp

/-- C66 (`slice_by`): whenever the splitting phase returns, slicing returns, and its shapes are proper. -/
theorem C66_slice_by (x : Externals) (hok : x.bind.Ok) (hs : SortsByA x.sortI) (order : List Pt → Bool) (ho : OrderOk order)
    (rule : FillRule) (st : Strategy) (sr : SnapRadius) (tree : TreeOracle CountStr) (ht : tree.Ok)
    (sc : ScanOracle CountStr) (hsc : sc.Ok) (fuel : Nat) (hE : EndSort x.sortE) (shape paths contours : List (List Pt))
    (hf : FragOk st sr (stringSegments shape paths contours)) (r : List (Seg CountStr))
    (hr : nodedEdges st sr tree fuel (stringSegments shape paths contours) = some r)
    (hn : st = .list ∨ 2 < r.length) :
    ∃ shapes, sliceBy x order rule st sr tree sc fuel shape paths contours = some shapes ∧
      SliceProper false (fun q => rule.inside (segsWind CountStr.subj r q)) shapes := by
  obtain ⟨g, shapes, h1, h2, h3⟩ := C66_slice_extract x hok hs order ho false rule st sr tree ht sc hsc fuel hE shape paths
    contours hf r hr hn
  refine ⟨shapes, ?_, h3⟩
  unfold sliceBy
  rw [h1, Option.bind_some]
  exact h2

/-- C66 (total correctness): if the edges of the shape and the cutting lines cross in whole points only, slicing returns,
its shapes are proper, and together they cover exactly the points inside the given shape, once. -/
theorem C66_slice_total (x : Externals) (hok : x.bind.Ok) (hs : SortsByA x.sortI) (order : List Pt → Bool) (ho : OrderOk order)
    (rule : FillRule) (sr : SnapRadius) (tree : TreeOracle CountStr) (ht : tree.Ok)
    (sc : ScanOracle CountStr) (hsc : sc.Ok) (fuel : Nat) (h2 : 2 ≤ fuel) (hE : EndSort x.sortE)
    (shape paths contours : List (List Pt))
    (hns : ∀ c ∈ shape, NotClosedExplicitly c) (hin : ∀ c ∈ shape ++ paths ++ contours, ∀ p ∈ c, InRange p)
    (hw : WholeCrossings (shape.flatMap polyEdges ++ userLines paths contours)) :
    ∃ shapes, sliceBy x order rule .list sr tree sc fuel shape paths contours = some shapes ∧
      SliceProper false (fun q => rule.inside (polysWind shape q)) shapes := by
  have hnr := string_not_round hns hin hw sr.radius
  obtain ⟨r, hr⟩ : ∃ r, nodedEdges .list sr tree fuel (stringSegments shape paths contours) = some r := by
    unfold nodedEdges
    split
    · exact ⟨_, rfl⟩
    · exact split_once .list ht sr (stringSegments_lt shape paths contours) (FragOk.list _ _) hnr h2
  obtain ⟨shapes, s1, s2⟩ := C66_slice_by x hok hs order ho rule .list sr tree ht sc hsc fuel hE shape paths contours
    (FragOk.list _ _) r hr (Or.inl rfl)
  refine ⟨shapes, s1, s2.oriented, s2.proper, s2.once, s2.disjoint, fun q => ?_⟩
  rw [s2.cover, string_noded_input hns hr hnr]

/-! ### examples -/

/-- A square with a square hole and a separate square; the square is cut by a closed line around the hole, and by one
within another: holes within holes. -/
def nestShape : List (List Pt) := [[⟨0, 0⟩, ⟨40, 0⟩, ⟨40, 40⟩, ⟨0, 40⟩], [⟨18, 18⟩, ⟨18, 22⟩, ⟨22, 22⟩, ⟨22, 18⟩],
  [⟨50, 0⟩, ⟨60, 0⟩, ⟨60, 10⟩, ⟨50, 10⟩]]
def nestLoops : List (List Pt) := [[⟨10, 10⟩, ⟨10, 30⟩, ⟨30, 30⟩, ⟨30, 10⟩], [⟨14, 24⟩, ⟨14, 26⟩, ⟨16, 26⟩, ⟨16, 24⟩]]

/-- The hypotheses of `C66_slice_extract`, `C66_slice_by` and `C66_slice_total` are met: four shapes, the holes go to the
right ones. -/
example : exRaw.bind.Ok ∧ SortsByA exRaw.sortI ∧ OrderOk exOrder ∧ EndSort exRaw.sortE ∧
    (∀ c ∈ nestShape, NotClosedExplicitly c) ∧ (∀ c ∈ nestShape ++ [] ++ nestLoops, ∀ p ∈ c, InRange p) ∧
    WholeCrossings (nestShape.flatMap polyEdges ++ userLines [] nestLoops) ∧
    (nodedEdges .list ⟨0, 1⟩ (bruteTree CountStr) 5 (stringSegments nestShape [] nestLoops)).isSome ∧
    sliceBy exRaw exOrder .nonZero .list ⟨0, 1⟩ (bruteTree CountStr) listScanOracle 5 nestShape [] nestLoops =
      some [[[⟨40, 0⟩, ⟨40, 40⟩, ⟨0, 40⟩, ⟨0, 0⟩], [⟨10, 10⟩, ⟨10, 30⟩, ⟨30, 30⟩, ⟨30, 10⟩]],
        [[⟨30, 10⟩, ⟨30, 30⟩, ⟨10, 30⟩, ⟨10, 10⟩], [⟨14, 24⟩, ⟨14, 26⟩, ⟨16, 26⟩, ⟨16, 24⟩],
          [⟨18, 18⟩, ⟨18, 22⟩, ⟨22, 22⟩, ⟨22, 18⟩]],
        [[⟨16, 24⟩, ⟨16, 26⟩, ⟨14, 26⟩, ⟨14, 24⟩]],
        [[⟨60, 0⟩, ⟨60, 10⟩, ⟨50, 10⟩, ⟨50, 0⟩]]] :=
  ⟨exRaw_assumed.2.bind, exRaw_assumed.2.sortI, orderOk_area, exRaw_assumed.1.sortE, by decide, by unfold InRange; decide,
    decide_whole (by decide +kernel), by decide +kernel, by decide +kernel⟩

end IOverlay
