/-
C58: the shapes returned by the slice operation.
-/
import Verif.SliceRun
import Verif.Area
import Verif.Props.Orient
import Verif.Props.Whole

namespace IOverlay

/-- Contract of `is_clockwise_ordered` (external crate `i_shape`): contours that wind once around their inner points
are recognised. -/
def OrderOk (order : List Pt → Bool) : Prop :=
  ∀ c, (WindsOnce (-1) c → order c = true) ∧ (WindsOnce 1 c → order c = false)

/-- The sign of the area meets the contract. -/
theorem orderOk_area : OrderOk exOrder := by
  intro c
  unfold exOrder
  constructor
  · intro h
    exact decide_eq_true (windsOnce_area.2 h)
  · intro h
    have := windsOnce_area.1 h
    exact decide_eq_false (by omega)

/-- A closed polygon without repeated points drawn along the given edges. -/
structure DrawnAlong (es : List (Pt × Pt)) (p : List Pt) : Prop where
  simple : p.Nodup
  three : 3 ≤ p.length
  along : ∀ e ∈ polyEdges p, e ∈ es ∨ e.swap ∈ es

section
variable {r : List (Seg CountStr)}

theorem drawn_darts (hp : Planar r) {p : List Pt} (h : DrawnAlong (r.map fun s => (s.a, s.b)) p) :
    ∀ e ∈ polyEdges p, (dartOf e).s ∈ r.map Seg.key := by
  intro e he
  rcases h.along e he with h | h
  · obtain ⟨s, hs, rfl⟩ := List.mem_map.1 h
    rw [(dartOf_edge hp hs).1]
    exact List.mem_map_of_mem hs
  · obtain ⟨s, hs, h⟩ := List.mem_map.1 h
    have : e = (s.b, s.a) := by rw [← Prod.swap_swap e, ← h]; rfl
    rw [this, (dartOf_edge hp hs).2]
    exact List.mem_map_of_mem hs

theorem drawn_of_darts {p : List Pt} (h1 : p.Nodup) (h2 : 3 ≤ p.length)
    (h : ∀ e ∈ polyEdges p, (dartOf e).s ∈ r.map Seg.key) : DrawnAlong (r.map fun s => (s.a, s.b)) p := by
  refine ⟨h1, h2, fun e he => ?_⟩
  obtain ⟨s, hs, hk⟩ := List.mem_map.1 (h e he)
  have hc := dartOf_cases e
  rw [← hk] at hc
  change e = (s.a, s.b) ∨ e = (s.b, s.a) at hc
  rcases hc with rfl | rfl
  · exact Or.inl (List.mem_map.2 ⟨s, hs, rfl⟩)
  · exact Or.inr (List.mem_map.2 ⟨s, hs, rfl⟩)

theorem DrawnAlong.reverse {es : List (Pt × Pt)} {p : List Pt} (h : DrawnAlong es p) : DrawnAlong es p.reverse := by
  refine ⟨List.nodup_reverse.2 h.simple, by rw [List.length_reverse]; exact h.three, fun e he => ?_⟩
  rw [(polyEdges_reverse p).mem_iff] at he
  obtain ⟨f, hf, rfl⟩ := List.mem_map.1 he
  rcases h.along f hf with h | h
  · exact Or.inr (by rwa [Prod.swap_swap])
  · exact Or.inl h

theorem nested_reverse {c p : List Pt} (h : Nested c p) : Nested c.reverse p := by
  unfold Nested at h ⊢
  simp only [polyWind_reverse, ne_eq, neg_eq_zero] at h ⊢
  exact h

theorem nested_turned {cw d : Bool} {c p : List Pt} (h : Nested c p) : Nested (turned cw d c) p := by
  unfold turned
  split
  · exact nested_reverse h
  · exact h

end

theorem turned_winds {r : List (Seg CountStr)} (hpE : Planar (r.map Seg.key)) {order : List Pt → Bool} (ho : OrderOk order)
    (cw : Bool) {d : Bool} {c : List Pt} (a : FaceLoop d (r.map Seg.key) c) :
    WindsOnce (if order c = d then - outerTurn cw else outerTurn cw) (turned cw d c) := by
  have hw := a.winds hpE (keyed_keys r)
  obtain ⟨o1, o2⟩ := ho c
  have hr := @windsOnce_reverse 1 c
  have hr' := @windsOnce_reverse (-1) c
  unfold side at hw
  unfold turned outerTurn
  cases d <;> cases cw <;> simp at hw hr hr' ⊢ <;> rcases hw with hw | hw <;>
    first
      | (rw [o1 hw]; simpa using hw)
      | (rw [o2 hw]; simpa using hw)
      | (rw [o1 hw]; simpa using hr' hw)
      | (rw [o2 hw]; simpa using hr hw)

/-- C31 (whole slice): the hypothesis of C31 is met by every walk of every slice, so splitting the walks into loops never
fails. -/
theorem C31_slice (rule : FillRule) (st : Strategy) (sr : SnapRadius)
    (tree : TreeOracle CountStr) (ht : tree.Ok) (sc : ScanOracle CountStr) (hsc : sc.Ok) (fuel : Nat)
    (sortE : List End → List End) (hE : EndSort sortE) (shape paths contours : List (List Pt))
    (hf : FragOk st sr (stringSegments shape paths contours)) (r : List (Seg CountStr))
    (hr : nodedEdges st sr tree fuel (stringSegments shape paths contours) = some r)
    (hn : st = .list ∨ 2 < r.length) (g : Graph) (walks : List (Bool × List Pt))
    (hg : stringGraph rule st sr tree sc fuel sortE (stringSegments shape paths contours) = some g)
    (hw : sliceWalks g = some walks) : ∀ w ∈ walks, NonInterleaved w.2 ∧ ∃ loops, splitLoops 0 w.2 = some loops := by
  obtain ⟨hp, -, g', walks', h1, h2, h3, -⟩ :=
    slice_faces rule st sr tree ht sc hsc fuel sortE hE shape paths contours hf r hr hn
  rw [hg] at h1
  obtain rfl := Option.some.inj h1
  rw [hw] at h2
  obtain rfl := Option.some.inj h2
  intro w hm
  have h := h3 w hm
  have := faces_noninterleaved (planar_keys hp) (keyed_keys r) h.chain h.nodup h.mem
  rw [show (polyEdges w.2).map Prod.fst = w.2 from polyEdges_fst w.2] at this
  obtain ⟨loops, -, -, l1, -, -⟩ := C31_split_loops w.2 this
  exact ⟨this, loops, l1⟩

/-- The two lists of contours found by the slice operation. -/
structure SliceContours (rule : FillRule) (r : List (Seg CountStr)) (cw : Bool) (outer holes : List (List Pt)) : Prop where
  /-- no repeated points, at least three points, all edges are pieces of shape edges and cutting lines -/
  drawn : ∀ c ∈ outer ++ holes, DrawnAlong (r.map fun s => (s.a, s.b)) c
  /-- together they wind exactly once around the points inside -/
  wind : ∀ q, polysWind (outer ++ holes) q = outerTurn cw * if rule.inside (segsWind CountStr.subj r q) then 1 else 0
  /-- no contour is cut by a polygon drawn along the shape edges and cutting lines -/
  uncut : ∀ c ∈ outer ++ holes, ∀ p, DrawnAlong (r.map fun s => (s.a, s.b)) p → Nested c p
  turn_outer : ∀ c ∈ outer, WindsOnce (outerTurn cw) c
  turn_holes : ∀ c ∈ holes, WindsOnce (- outerTurn cw) c

/-- C58 (contours, either direction): for every shape, cutting lines, fill rule, strategy and precision, the extraction
of the contours succeeds. -/
theorem C58_slice_contours (order : List Pt → Bool) (ho : OrderOk order) (cw : Bool) (rule : FillRule) (st : Strategy)
    (sr : SnapRadius) (tree : TreeOracle CountStr) (ht : tree.Ok) (sc : ScanOracle CountStr) (hsc : sc.Ok) (fuel : Nat)
    (sortE : List End → List End) (hE : EndSort sortE) (shape paths contours : List (List Pt))
    (hf : FragOk st sr (stringSegments shape paths contours)) (r : List (Seg CountStr))
    (hr : nodedEdges st sr tree fuel (stringSegments shape paths contours) = some r)
    (hn : st = .list ∨ 2 < r.length) :
    ∃ g walks outer holes,
      stringGraph rule st sr tree sc fuel sortE (stringSegments shape paths contours) = some g ∧
      sliceWalks g = some walks ∧ assembleSlice order cw 0 walks = some (outer, holes) ∧
      SliceContours rule r cw outer holes := by
  obtain ⟨hp, hb, g, walks, h1, h2, h3, h4⟩ := slice_faces rule st sr tree ht sc hsc fuel sortE hE shape paths contours hf r hr hn
  obtain ⟨outer, holes, e1, e2, e3, e4⟩ := assemble_spec order cw hp walks h3
  refine ⟨g, walks, outer, holes, h1, h2, e1, ?_⟩
  have hall : ∀ c ∈ outer ++ holes, ∃ d c0, FaceLoop d (r.map Seg.key) c0 ∧ c = turned cw d c0 := by
    intro c hc
    rcases List.mem_append.1 hc with hc | hc
    · obtain ⟨d, c0, a, -, b⟩ := e2 c hc
      exact ⟨d, c0, a, b⟩
    · obtain ⟨d, c0, a, -, b⟩ := e3 c hc
      exact ⟨d, c0, a, b⟩
  have hpE := planar_keys hp
  refine ⟨?_, ?_, ?_, ?_, ?_⟩
  · intro c hc
    obtain ⟨d, c0, a, rfl⟩ := hall c hc
    have := drawn_of_darts a.simple a.three a.mem
    unfold turned
    split
    · exact this.reverse
    · exact this
  · intro q
    rw [polysWind_append, e4, stepsWind_perm h4, edgesSides_wind rule hp hb]
  · intro c hc p hd
    obtain ⟨d, c0, a, rfl⟩ := hall c hc
    exact nested_turned (a.nested hpE (keyed_keys r) hd.simple hd.three (drawn_darts hp hd))
  · intro c hc
    obtain ⟨d, c0, a, b, rfl⟩ := e2 c hc
    have := turned_winds hpE ho cw a
    simpa [b] using this
  · intro c hc
    obtain ⟨d, c0, a, b, rfl⟩ := e3 c hc
    have := turned_winds hpE ho cw a
    simpa [b] using this

/-- The shapes made of these contours. -/
theorem SliceContours.shapes {rule : FillRule} {r : List (Seg CountStr)} {cw : Bool} {outer holes : List (List Pt)}
    (h : SliceContours rule r cw outer holes) {o : BindOracle} {sortI : List IdSeg → List IdSeg} {shapes : List (List (List Pt))}
    (hj : joinUnsortedHoles o sortI (outer.map fun c => [c]) holes cw = some shapes) :
    shapes.flatten.Perm (outer ++ holes) ∧ shapes.map List.head? = outer.map some ∧ ∀ sh ∈ shapes, OrientedShape cw sh := by
  have e2 : ∀ l : List (List Pt), (l.map fun c => [c]).flatten = l := by
    intro l; induction l <;> simp_all
  by_cases hs : outer = []
  · have hh : holes = [] := by
      rcases holes with _ | ⟨c, hs'⟩
      · rfl
      · exfalso
        subst hs
        obtain ⟨q, hq⟩ := (h.turn_holes c (by simp)).2
        have hw := h.wind q
        rw [List.nil_append] at hw
        have hle : ∀ l : List (List Pt), (∀ c ∈ l, WindsOnce (- outerTurn cw) c) → 0 ≤ - outerTurn cw * polysWind l q := by
          intro l
          induction l with
          | nil => intro _; simp [polysWind]
          | cons a l ih =>
            intro hl
            have := ih fun c hc => hl c (List.mem_cons_of_mem _ hc)
            have h1 := (hl a (by simp)).1 q
            have e : polysWind (a :: l) q = polyWind a q + polysWind l q := by unfold polysWind; simp
            rw [e]
            unfold outerTurn at *
            cases cw <;> simp at * <;> omega
        have := hle hs' fun c hc => h.turn_holes c (List.mem_cons_of_mem _ hc)
        have e : polysWind (c :: hs') q = polyWind c q + polysWind hs' q := by unfold polysWind; simp
        rw [e, hq] at hw
        unfold outerTurn at *
        split at hw <;> cases cw <;> simp at * <;> omega
    subst hs hh
    have : shapes = [] := by
      unfold joinUnsortedHoles at hj
      simpa using hj.symm
    subst this
    exact ⟨List.Perm.refl _, rfl, by simp⟩
  · obtain ⟨p, parents, -, -, p3⟩ := C25_join_unsorted _ _ _ _ _ _ (by simpa using hs) hj
    rw [e2] at p
    refine ⟨p, ?_, ?_⟩
    · rw [p3]
      refine List.ext_getElem (by simp) fun i h1 h2 => ?_
      simp
    · intro sh hsh
      rw [p3] at hsh
      obtain ⟨i, hi, rfl⟩ := List.mem_mapIdx.1 hsh
      rw [List.getElem_map]
      refine ⟨outer[i]'(by simpa using hi), _, rfl, h.turn_outer _ (List.getElem_mem _), ?_⟩
      intro c hc'
      obtain ⟨y, hy, rfl⟩ := List.mem_map.1 hc'
      rw [List.mem_filter] at hy
      exact h.turn_holes _ (List.of_mem_zip hy.1).1

/-- C58 (shapes): every returned shape is a counterclockwise outer contour followed by clockwise holes; every contour
winds at most once around any point, has no repeated points and runs along pieces of the shape's edges and the
cutting lines, as left by the splitting phase; all contours together wind exactly once around every point inside the
shape and not at all around the others; any two contours are disjoint or one is inside the other, and so is every
contour with every polygon drawn along pieces of the shape's edges and the cutting lines, so no contour is cut any
further by the lines. -/
theorem C58_slice_shapes (x : Externals) (order : List Pt → Bool) (ho : OrderOk order) (rule : FillRule) (st : Strategy)
    (sr : SnapRadius) (tree : TreeOracle CountStr) (ht : tree.Ok) (sc : ScanOracle CountStr) (hsc : sc.Ok) (fuel : Nat)
    (hE : EndSort x.sortE) (shape paths contours : List (List Pt))
    (hf : FragOk st sr (stringSegments shape paths contours)) (r : List (Seg CountStr))
    (hr : nodedEdges st sr tree fuel (stringSegments shape paths contours) = some r)
    (hn : st = .list ∨ 2 < r.length) (shapes : List (List (List Pt)))
    (h : sliceBy x order rule st sr tree sc fuel shape paths contours = some shapes) :
    (∀ sh ∈ shapes, OrientedShape false sh) ∧
    (∀ c ∈ shapes.flatten, DrawnAlong (r.map fun s => (s.a, s.b)) c) ∧
    (∀ q, polysWind shapes.flatten q = if rule.inside (segsWind CountStr.subj r q) then 1 else 0) ∧
    shapes.flatten.Pairwise Nested ∧
    ∀ c ∈ shapes.flatten, ∀ p, DrawnAlong (r.map fun s => (s.a, s.b)) p → Nested c p := by
  obtain ⟨g, walks, outer, holes, h1, h2, h3, h4⟩ := C58_slice_contours order ho false rule st sr tree ht sc hsc fuel
    x.sortE hE shape paths contours hf r hr hn
  unfold sliceBy at h
  rw [h1, Option.bind_some] at h
  unfold sliceShapes at h
  rw [h2, Option.bind_some, h3, Option.bind_some] at h
  obtain ⟨p, -, q⟩ := h4.shapes h
  have hd : ∀ c ∈ shapes.flatten, DrawnAlong (r.map fun s => (s.a, s.b)) c := fun c hc => h4.drawn c (p.mem_iff.1 hc)
  have hu : ∀ c ∈ shapes.flatten, ∀ p, DrawnAlong (r.map fun s => (s.a, s.b)) p → Nested c p :=
    fun c hc => h4.uncut c (p.mem_iff.1 hc)
  refine ⟨q, hd, fun q => ?_, ?_, hu⟩
  · rw [polysWind_perm p, h4.wind]; unfold outerTurn; simp
  · exact List.Pairwise.imp_of_mem (R := fun _ _ => True) (fun ha hb _ => hu _ ha _ (hd _ hb)) (List.pairwise_of_forall fun _ _ => trivial)

/-! ### exact slices -/

/-- The edges registered by a string overlay lie along the given ones. -/
theorem stringSegments_along {shape paths contours : List (List Pt)} (hs : ∀ c ∈ shape, NotClosedExplicitly c) :
    ∀ s ∈ stringSegments shape paths contours, Along (shape.flatMap polyEdges ++ userLines paths contours) s.a s.b := by
  have up : ∀ {E E' : List (Pt × Pt)} {a b : Pt}, (∀ e ∈ E, e ∈ E') → Along E a b → Along E' a b := by
    intro E E' a b hE h q hq
    rcases h q hq with ⟨h, e, h1, h2⟩ | ⟨e, h1, h2⟩
    · exact Or.inl ⟨h, e, hE e h1, h2⟩
    · exact Or.inr ⟨e, hE e h1, h2⟩
  intro s hm
  by_cases hc : s ∈ shape.flatMap (appendContour .subject)
  · obtain ⟨c, hcm, hcs⟩ := List.mem_flatMap.1 hc
    refine up ?_ (appendPath_along _ _ c (hs c hcm) s hcs)
    intro e he
    exact List.mem_append_left _ (List.mem_flatMap.2 ⟨c, hcm, he⟩)
  · have hb : s.c.back = !s.c.fwd := by
      unfold stringSegments at hm
      rcases List.mem_append.1 hm with hm | hm
      · rcases List.mem_append.1 hm with hm | hm
        · exact absurd hm hc
        · obtain ⟨c, -, h⟩ := List.mem_flatMap.1 hm
          exact ((C27_string_path c).2 s h).2.2
      · obtain ⟨c, -, h⟩ := List.mem_flatMap.1 hm
        exact ((C27_string_contour c).2 s h).2.2
    rcases hf : s.c.fwd with _ | _
    · have : (s.a, s.b) ∈ s.pieces := (mem_pieces _ _ _).2 (Or.inl ⟨by rw [hb, hf]; rfl, rfl, rfl⟩)
      have := (stringSegments_pieces shape paths contours _).1 ⟨s, hm, this⟩
      exact Along.edge (List.mem_append_right _ this.1)
    · have : (s.b, s.a) ∈ s.pieces := (mem_pieces _ _ _).2 (Or.inr ⟨hf, rfl, rfl⟩)
      have := (stringSegments_pieces shape paths contours _).1 ⟨s, hm, this⟩
      exact (Along.edge (List.mem_append_right _ this.1)).symm

/-- Nothing is rounded if the edges of the shape and the lines cross in whole points. -/
theorem string_not_round {shape paths contours : List (List Pt)} (hns : ∀ c ∈ shape, NotClosedExplicitly c)
    (hin : ∀ c ∈ shape ++ paths ++ contours, ∀ p ∈ c, InRange p)
    (hw : WholeCrossings (shape.flatMap polyEdges ++ userLines paths contours)) (radius : Int) :
    (roundMarks radius (listPairs (mergeIfNeeded (sortSegs (stringSegments shape paths contours))))).2 = false := by
  refine roundMarks_not_round (start_lt (stringSegments_lt shape paths contours))
    (start_ends (stringSegments_ends (P := InRange) hin)) hw ?_ radius
  intro s hs
  obtain ⟨e, h1, h2, h3⟩ := mergeIfNeeded_edges _ s hs
  rw [(sortSegs_perm _).mem_iff] at h1
  rw [h2, h3]
  exact stringSegments_along hns e h1

theorem string_noded_input {sr : SnapRadius} {tree : TreeOracle CountStr} {fuel : Nat}
    {shape paths contours : List (List Pt)} (hns : ∀ c ∈ shape, NotClosedExplicitly c) {r : List (Seg CountStr)}
    (hr : nodedEdges .list sr tree fuel (stringSegments shape paths contours) = some r)
    (hx : (roundMarks sr.radius (listPairs (mergeIfNeeded (sortSegs (stringSegments shape paths contours))))).2 = false)
    (q : QPt) : segsWind CountStr.subj r q = polysWind shape q := by
  unfold nodedEdges at hr
  split at hr
  · rename_i he
    have e := List.isEmpty_iff.1 he
    rw [← Option.some.inj hr, ← stringSegments_wind shape paths contours hns q, e]
  · rw [C14_exact_split isComp_strSubj sr tree fuel _ r (stringSegments_lt shape paths contours) hx hr q]
    exact stringSegments_wind shape paths contours hns q

/-- C58 (against the input itself): if the edges of the shape and the cutting lines cross in whole points only, the
pieces wind exactly once around every point inside the given shape and not at all around the others. -/
theorem C58_slice_input (x : Externals) (order : List Pt → Bool) (ho : OrderOk order) (rule : FillRule)
    (sr : SnapRadius) (tree : TreeOracle CountStr) (ht : tree.Ok) (sc : ScanOracle CountStr) (hsc : sc.Ok) (fuel : Nat)
    (hE : EndSort x.sortE) (shape paths contours : List (List Pt))
    (hns : ∀ c ∈ shape, NotClosedExplicitly c) (hin : ∀ c ∈ shape ++ paths ++ contours, ∀ p ∈ c, InRange p)
    (hw : WholeCrossings (shape.flatMap polyEdges ++ userLines paths contours))
    (shapes : List (List (List Pt)))
    (h : sliceBy x order rule .list sr tree sc fuel shape paths contours = some shapes) (q : QPt) :
    polysWind shapes.flatten q = if rule.inside (polysWind shape q) then 1 else 0 := by
  have hr : ∃ r, nodedEdges .list sr tree fuel (stringSegments shape paths contours) = some r := by
    unfold sliceBy stringGraph buildString at h
    obtain ⟨g, hg, -⟩ := Option.bind_eq_some_iff.1 h
    obtain ⟨l, hl, -⟩ := Option.bind_eq_some_iff.1 hg
    unfold nodedEdges
    split at hl
    · rename_i he; exact ⟨[], by rw [if_pos he]⟩
    · rename_i he
      obtain ⟨r, hr, -⟩ := Option.map_eq_some_iff.1 hl
      exact ⟨r, by rw [if_neg he]; exact hr⟩
  obtain ⟨r, hr⟩ := hr
  obtain ⟨-, -, h3, -, -⟩ := C58_slice_shapes x order ho rule .list sr tree ht sc hsc fuel hE shape paths contours
    (FragOk.list _ _) r hr (Or.inl rfl) shapes h
  rw [h3, string_noded_input hns hr (string_not_round hns hin hw sr.radius)]

/-- C58 (areas): slicing keeps the area. If, moreover, every point is enclosed at most once by the shape's contours, the
areas (twice, signed) of the returned contours add up to that of the given ones. -/
theorem C58_slice_area (x : Externals) (order : List Pt → Bool) (ho : OrderOk order) (rule : FillRule)
    (sr : SnapRadius) (tree : TreeOracle CountStr) (ht : tree.Ok) (sc : ScanOracle CountStr) (hsc : sc.Ok) (fuel : Nat)
    (hE : EndSort x.sortE) (shape paths contours : List (List Pt))
    (hns : ∀ c ∈ shape, NotClosedExplicitly c) (hin : ∀ c ∈ shape ++ paths ++ contours, ∀ p ∈ c, InRange p)
    (hw : WholeCrossings (shape.flatMap polyEdges ++ userLines paths contours))
    (hone : ∀ q, polysWind shape q = if rule.inside (polysWind shape q) then 1 else 0)
    (shapes : List (List (List Pt)))
    (h : sliceBy x order rule .list sr tree sc fuel shape paths contours = some shapes) :
    totalArea shapes.flatten = totalArea shape :=
  area_congr fun q => by
    rw [C58_slice_input x order ho rule sr tree ht sc hsc fuel hE shape paths contours hns hin hw shapes h q, ← hone]

/-! ### examples -/

/-- A square with a square hole. -/
def cutShape : List (List Pt) := [[⟨0, 0⟩, ⟨12, 0⟩, ⟨12, 12⟩, ⟨0, 12⟩], [⟨4, 4⟩, ⟨4, 8⟩, ⟨8, 8⟩, ⟨8, 4⟩]]
/-- A line through it, and a line that ends inside it. -/
def cutLines : List (List Pt) := [[⟨-2, 6⟩, ⟨6, 6⟩, ⟨14, 6⟩], [⟨6, -2⟩, ⟨6, 2⟩, ⟨9, 2⟩]]
/-- A closed cutting line. -/
def cutLoops : List (List Pt) := [[⟨1, 1⟩, ⟨1, 3⟩, ⟨3, 3⟩, ⟨3, 1⟩]]

/-- The hypotheses of `C58_slice_contours`, `C58_slice_shapes` and `C58_slice_input` are met: the shape is cut in three
pieces, one of them with a hole; the line ending inside leaves no trace but a vertex. -/
example : OrderOk exOrder ∧ EndSort exRaw.sortE ∧ (∀ c ∈ cutShape, NotClosedExplicitly c) ∧
    (∀ c ∈ cutShape ++ cutLines ++ cutLoops, ∀ p ∈ c, InRange p) ∧
    WholeCrossings (cutShape.flatMap polyEdges ++ userLines cutLines cutLoops) ∧
    (nodedEdges .list ⟨0, 1⟩ (bruteTree CountStr) 5 (stringSegments cutShape cutLines cutLoops)).isSome ∧
    sliceBy exRaw exOrder .nonZero .list ⟨0, 1⟩ (bruteTree CountStr) listScanOracle 5 cutShape cutLines cutLoops =
      some [[[⟨6, 0⟩, ⟨12, 0⟩, ⟨12, 6⟩, ⟨8, 6⟩, ⟨8, 4⟩, ⟨4, 4⟩, ⟨4, 6⟩, ⟨0, 6⟩, ⟨0, 0⟩],
          [⟨1, 1⟩, ⟨1, 3⟩, ⟨3, 3⟩, ⟨3, 1⟩]],
        [[⟨4, 6⟩, ⟨4, 8⟩, ⟨8, 8⟩, ⟨8, 6⟩, ⟨12, 6⟩, ⟨12, 12⟩, ⟨0, 12⟩, ⟨0, 6⟩]],
        [[⟨3, 1⟩, ⟨3, 3⟩, ⟨1, 3⟩, ⟨1, 1⟩]]] :=
  ⟨orderOk_area, exRaw_assumed.1.sortE, by decide, by unfold InRange; decide, decide_whole (by decide +kernel),
    by decide +kernel, by decide +kernel⟩

/-- The last hypothesis of `C58_slice_area` is met by every counterclockwise result of an overlay. -/
theorem result_once (k : Config) (x : Externals) (ha : Assumed k x) (r : OverlayRule) (rule : FillRule)
    (subj clip : List (List Pt)) (hf : FragFor k subj clip) (shapes : List (List (List Pt)))
    (h : overlayCustom k x r rule false 0 (overlaySegments subj clip) = some shapes) (q : QPt) :
    polysWind shapes.flatten q = if FillRule.nonZero.inside (polysWind shapes.flatten q) then 1 else 0 := by
  obtain ⟨-, segs, -, h2⟩ := C41_overlay k x ha r rule false subj clip hf shapes h
  rw [h2]
  unfold outerTurn
  cases r.op (rule.inside (segsWind CountBool.subj segs q)) (rule.inside (segsWind CountBool.clip segs q)) <;> rfl

end IOverlay
