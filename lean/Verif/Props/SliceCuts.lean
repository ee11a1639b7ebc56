/-
C67: slicing cuts exactly along the lines.
-/
import Verif.SliceCells
import Verif.Props.DriftString

namespace IOverlay

/-- A closed path, drawn along the given edges in any direction, as often as wanted. -/
def ClosedAlong (es : List (Pt × Pt)) (p : List Pt) : Prop := ∀ e ∈ polyEdges p, e ∈ es ∨ e.swap ∈ es

/-- What is claimed of the pieces: points of the same piece are not separated by any closed path along the edges, and points
inside that no polygon along the edges separates are in the same piece. -/
structure SliceCut (es : List (Pt × Pt)) (inside : QPt → Bool) (shapes : List (List (List Pt))) : Prop where
  same : ∀ sh ∈ shapes, ∀ q q', polysWind sh q ≠ 0 → polysWind sh q' ≠ 0 →
    ∀ p, ClosedAlong es p → polyWind p q = polyWind p q'
  apart : ∀ q q', inside q = true → inside q' = true → (∀ p, DrawnAlong es p → polyWind p q = polyWind p q') →
    ∃ sh ∈ shapes, polysWind sh q ≠ 0 ∧ polysWind sh q' ≠ 0

theorem along_darts {r : List (Seg CountStr)} (hp : Planar r) {p : List Pt} (h : ClosedAlong (r.map fun s => (s.a, s.b)) p) :
    ∀ e ∈ polyEdges p, (dartOf e).s ∈ r.map Seg.key := by
  intro e he
  rcases h e he with h | h
  · obtain ⟨s, hs, rfl⟩ := List.mem_map.1 h
    rw [(dartOf_edge hp hs).1]
    exact List.mem_map_of_mem hs
  · obtain ⟨s, hs, h⟩ := List.mem_map.1 h
    have : e = (s.b, s.a) := by rw [← Prod.swap_swap e, ← h]; rfl
    subst this
    rw [(dartOf_edge hp hs).2]
    exact List.mem_map_of_mem hs

/-- A point covered by shapes is covered by one of them. -/
theorem covered_by {shapes : List (List (List Pt))} {q : QPt} (h : polysWind shapes.flatten q ≠ 0) :
    ∃ sh ∈ shapes, polysWind sh q ≠ 0 := by
  by_contra hn
  push Not at hn
  apply h
  induction shapes with
  | nil => rfl
  | cons x L ih =>
    rw [List.flatten_cons, polysWind_append, hn x (by simp), zero_add]
    exact ih (by rw [List.flatten_cons, polysWind_append, hn x (by simp), zero_add] at h; exact h)
      fun sh hsh => hn sh (by simp [hsh])

section
variable {cw : Bool} {r : List (Seg CountStr)} {outer holes : List (List Pt)} (hp : Planar r)
  (h : Cells cw (r.map Seg.key) outer holes)
include hp h

/-- Shapes joined from contours with the same surroundings are the cells. -/
theorem Cells.cut {parents : List Nat} (hpar : ∀ (i : Nat) (H : List Pt), holes[i]? = some H → ∃ (p : Nat) (O : List Pt),
      parents[i]? = some p ∧ outer[p]? = some O ∧ SameSide cw (r.map Seg.key) H O)
    {shapes : List (List (List Pt))} (hsh : shapes = attach (outer.map fun c => [c]) (holes.zip parents))
    (hperm : shapes.flatten.Perm (outer ++ holes))
    {inside : QPt → Bool} (hpr : SliceProper cw inside shapes) :
    SliceCut (r.map fun s => (s.a, s.b)) inside shapes := by
  have hpE := planar_keys hp
  have hkE := keyed_keys r
  have hform : ∀ sh ∈ shapes, ∃ O hs, sh = O :: hs ∧ O ∈ outer ∧ ∀ H ∈ hs, H ∈ holes ∧ SameSide cw (r.map Seg.key) H O := by
    intro sh hs
    rw [hsh] at hs
    obtain ⟨i, hi, rfl⟩ := List.mem_mapIdx.1 hs
    rw [List.getElem_map]
    have hi' : i < outer.length := by simpa using hi
    refine ⟨outer[i], _, rfl, List.getElem_mem _, ?_⟩
    intro H hH
    change H ∈ List.map _ (List.filter _ _) at hH
    obtain ⟨y, hy, rfl⟩ := List.mem_map.1 hH
    rw [List.mem_filter] at hy
    obtain ⟨hy1, hy2⟩ := hy
    have hy2 : y.2 = i := by simpa using hy2
    obtain ⟨j, hj⟩ := List.getElem?_of_mem hy1
    rw [List.getElem?_zip_eq_some] at hj
    obtain ⟨p, O, q1, q2, q3⟩ := hpar j y.1 hj.1
    rw [hj.2] at q1
    obtain rfl := Option.some.inj q1
    rw [hy2] at q2
    rw [(List.getElem?_eq_some_iff.1 q2).2]
    exact ⟨List.mem_of_getElem? hj.1, q3⟩
  -- a point of a shape has the surroundings of its outer contour
  have hcell : ∀ sh ∈ shapes, ∀ q, polysWind sh q ≠ 0 → ∀ O ∈ sh.head?, ∀ φ, Closed φ (r.map Seg.key) → ∀ f ∈ polyEdges O,
      segsWind φ (r.map Seg.key) q = hug (!cw) φ (r.map Seg.key) (dartOf f) := by
    intro sh hs q hq O hO φ hφ f hf
    have hall : polysWind (outer ++ holes) q = outerTurn cw := by
      rw [← polysWind_perm hperm]
      have := hpr.cover q
      rw [this]
      by_cases hin : inside q = true
      · rw [if_pos hin, mul_one]
      · exfalso
        rw [if_neg hin, mul_zero] at this
        have hz : ∀ sh ∈ shapes, polysWind sh q = 0 ∨ polysWind sh q = outerTurn cw := fun sh hs => hpr.once sh hs q
        have hsum : polysWind shapes.flatten q = (shapes.map fun sh => polysWind sh q).sum := by
          clear * -
          unfold polysWind
          induction shapes with
          | nil => rfl
          | cons x L ih => rw [List.flatten_cons, List.map_append, List.sum_append, ih, List.map_cons, List.sum_cons]
        have hd := hpr.disjoint
        -- all other shapes are zero
        obtain ⟨l1, l2, e⟩ := List.append_of_mem hs
        rw [e] at hd hsum
        have hz1 : ∀ l : List (List (List Pt)), (∀ sh' ∈ l, polysWind sh' q = 0) → (l.map fun sh => polysWind sh q).sum = 0 := by
          intro l hl
          refine List.sum_eq_zero ?_
          intro z hz
          obtain ⟨s, hs, rfl⟩ := List.mem_map.1 hz
          exact hl s hs
        obtain ⟨d1, d2, d3⟩ := List.pairwise_append.1 hd
        rw [List.map_append, List.sum_append, List.map_cons, List.sum_cons,
          hz1 l1 fun s hs => (d3 s hs sh (by simp) q).resolve_right hq,
          hz1 l2 fun s hs => ((List.pairwise_cons.1 d2).1 s hs q).resolve_left hq, ← e, this] at hsum
        omega
    obtain ⟨Y, hY, k, hk, hval⟩ := h.point hpE hkE hall
    -- the shape of that contour
    have hYs := hperm.mem_iff.2 hY
    obtain ⟨sh', hsh', hYsh⟩ := List.mem_flatten.1 hYs
    obtain ⟨O', hs', e', hO', hhs'⟩ := hform sh' hsh'
    have hown := h.own_shape hpE hkE hO' hhs' (by rw [← e']; exact hYsh) hk hval
    rw [← e'] at hown
    have heq : sh = sh' := by
      by_contra hne
      have hsym : ∀ x ∈ shapes, ∀ y ∈ shapes, x ≠ y → ∀ q, polysWind x q = 0 ∨ polysWind y q = 0 := by
        intro x hx y hy hxy
        have : Std.Symm fun sh sh' : List (List Pt) => ∀ q, polysWind sh q = 0 ∨ polysWind sh' q = 0 :=
          ⟨fun _ _ hab q => (hab q).symm⟩
        exact hpr.disjoint.forall hx hy hxy
      rcases hsym sh hs sh' hsh' hne q with k | k
      · exact hq k
      · rw [hown] at k; exact outerTurn_ne cw k
    rw [heq, e'] at hO
    obtain rfl : O' = O := by simpa using hO
    rw [hval φ hφ]
    rw [e'] at hYsh
    rcases List.mem_cons.1 hYsh with rfl | hm
    · obtain ⟨m, hm⟩ := (h.loop Y hY).const φ hφ
      rw [hm k hk, hm f hf]
    · exact (hhs' Y hm).2 φ hφ k hk f hf
  refine ⟨?_, ?_⟩
  · intro sh hs q q' hq hq' p hpa
    obtain ⟨O, hs', e, hO, -⟩ := hform sh hs
    obtain ⟨f, hf⟩ := h.edge (List.mem_append_left _ hO)
    have hd := along_darts hp hpa
    have hφ : Closed (stepFlow (polyEdges p)) (r.map Seg.key) := loop_closed hpE hkE hd
    have h1 := hcell sh hs q hq O (by rw [e]; rfl) _ hφ f hf
    have h2 := hcell sh hs q' hq' O (by rw [e]; rfl) _ hφ f hf
    have e1 := stepFlow_wind hpE hkE hd q
    have e2 := stepFlow_wind hpE hkE hd q'
    rw [h1] at e1
    rw [h2] at e2
    exact e1.symm.trans e2
  · intro q q' hq hq' hall
    have hc := hpr.cover q
    rw [if_pos hq, mul_one] at hc
    obtain ⟨sh, hs, h0⟩ := covered_by (shapes := shapes) (q := q) (by rw [hc]; exact outerTurn_ne cw)
    refine ⟨sh, hs, h0, ?_⟩
    rw [← polysWind_congr (q := q) (q' := q') ?_]
    · exact h0
    · intro c hcs
      have hcm := hperm.mem_iff.1 (List.mem_flatten.2 ⟨sh, hs, hcs⟩)
      have hl := h.loop c hcm
      exact hall c (drawn_of_darts hl.simple hl.three hl.mem)

end

/-- C67 (either direction): whenever the splitting phase returns, the pieces extracted are the cells cut out by the noded
edges of the shape and of the cutting lines. -/
theorem C67_slice_extract (x : Externals) (hok : x.bind.Ok) (hs : SortsByA x.sortI) (order : List Pt → Bool) (ho : OrderOk order)
    (cw : Bool) (rule : FillRule) (st : Strategy) (sr : SnapRadius) (tree : TreeOracle CountStr) (ht : tree.Ok)
    (sc : ScanOracle CountStr) (hsc : sc.Ok) (fuel : Nat) (hE : EndSort x.sortE) (shape paths contours : List (List Pt))
    (hf : FragOk st sr (stringSegments shape paths contours)) (r : List (Seg CountStr))
    (hr : nodedEdges st sr tree fuel (stringSegments shape paths contours) = some r)
    (hn : st = .list ∨ 2 < r.length) (g : Graph) (shapes : List (List (List Pt)))
    (hg : stringGraph rule st sr tree sc fuel x.sortE (stringSegments shape paths contours) = some g)
    (he : sliceShapes x order cw 0 g = some shapes) :
    SliceCut (r.map fun s => (s.a, s.b)) (fun q => rule.inside (segsWind CountStr.subj r q)) shapes := by
  obtain ⟨g', shapes', k1, k2, k3⟩ := C66_slice_extract x hok hs order ho cw rule st sr tree ht sc hsc fuel hE shape paths
    contours hf r hr hn
  rw [hg] at k1
  obtain rfl := Option.some.inj k1
  rw [he] at k2
  obtain rfl := Option.some.inj k2
  obtain ⟨hp, g', walks, outer, holes, h1, h2, h3, h4, h5⟩ := slice_pieces order ho cw rule st sr tree ht sc hsc fuel
    x.sortE hE shape paths contours hf r hr hn
  rw [hg] at h1
  obtain rfl := Option.some.inj h1
  obtain ⟨parents, p1, p2, p3, p4⟩ := h5.attached (planar_keys hp) (keyed_keys r) hok hs
  have hsh : shapes = attach (outer.map fun c => [c]) (holes.zip parents) := by
    unfold sliceShapes at he
    rw [h2, Option.bind_some, h3, Option.bind_some] at he
    change joinUnsortedHoles x.bind x.sortI (outer.map fun c => [c]) holes cw = some shapes at he
    rw [p3] at he
    exact (Option.some.inj he).symm
  rw [← hsh] at p3
  exact h5.cut hp p4 hsh (h4.shapes p3).1 k3

/-- C67 (`slice_by`): the pieces are the cells cut out by the noded edges of the shape and of the cutting lines. -/
theorem C67_slice_by (x : Externals) (hok : x.bind.Ok) (hs : SortsByA x.sortI) (order : List Pt → Bool) (ho : OrderOk order)
    (rule : FillRule) (st : Strategy) (sr : SnapRadius) (tree : TreeOracle CountStr) (ht : tree.Ok)
    (sc : ScanOracle CountStr) (hsc : sc.Ok) (fuel : Nat) (hE : EndSort x.sortE) (shape paths contours : List (List Pt))
    (hf : FragOk st sr (stringSegments shape paths contours)) (r : List (Seg CountStr))
    (hr : nodedEdges st sr tree fuel (stringSegments shape paths contours) = some r)
    (hn : st = .list ∨ 2 < r.length) (shapes : List (List (List Pt)))
    (he : sliceBy x order rule st sr tree sc fuel shape paths contours = some shapes) :
    SliceCut (r.map fun s => (s.a, s.b)) (fun q => rule.inside (segsWind CountStr.subj r q)) shapes := by
  unfold sliceBy at he
  obtain ⟨g, h1, h2⟩ := Option.bind_eq_some_iff.1 he
  exact C67_slice_extract x hok hs order ho false rule st sr tree ht sc hsc fuel hE shape paths contours hf r hr hn g shapes h1 h2

/-- The given edges and lines cut where they meet: pieces that meet only at their ends, lie on the given edges and lines, and
cover the given lines. -/
structure CutUp (shape : List (Pt × Pt)) (lines : List (Pt × Pt)) (es : List (Pt × Pt)) : Prop where
  proper : ∀ e ∈ es, e.1 ≠ e.2
  meet : ∀ e ∈ es, ∀ f ∈ es, e ≠ f → MeetAtEnds e.1 e.2 f.1 f.2
  on : ∀ e ∈ es, ∀ q, onSeg q e.1 e.2 → ∃ l ∈ shape ++ lines, onSeg q l.1 l.2
  cover : ∀ l ∈ lines, l.1 ≠ l.2 → ∀ q, onSeg q l.1 l.2 → ∃ e ∈ es, onSeg q e.1 e.2

/-- C67 (total correctness): if the edges of the shape and the cutting lines cross in whole points only, slicing returns the
cells cut out by them. -/
theorem C67_slice_total (x : Externals) (hok : x.bind.Ok) (hs : SortsByA x.sortI) (order : List Pt → Bool) (ho : OrderOk order)
    (rule : FillRule) (sr : SnapRadius) (tree : TreeOracle CountStr) (ht : tree.Ok)
    (sc : ScanOracle CountStr) (hsc : sc.Ok) (fuel : Nat) (h2 : 2 ≤ fuel) (hE : EndSort x.sortE)
    (shape paths contours : List (List Pt))
    (hns : ∀ c ∈ shape, NotClosedExplicitly c) (hin : ∀ c ∈ shape ++ paths ++ contours, ∀ p ∈ c, InRange p)
    (hw : WholeCrossings (shape.flatMap polyEdges ++ userLines paths contours)) :
    ∃ shapes es, sliceBy x order rule .list sr tree sc fuel shape paths contours = some shapes ∧
      CutUp (shape.flatMap polyEdges) (userLines paths contours) es ∧
      SliceCut es (fun q => rule.inside (polysWind shape q)) shapes := by
  have hnr := string_not_round hns hin hw sr.radius
  obtain ⟨shapes, s1, -⟩ := C66_slice_total x hok hs order ho rule sr tree ht sc hsc fuel h2 hE shape paths contours hns hin hw
  -- one round suffices
  obtain ⟨r, hr, hr1⟩ : ∃ r, nodedEdges .list sr tree fuel (stringSegments shape paths contours) = some r ∧
      nodedEdges .list sr tree 1 (stringSegments shape paths contours) = some r := by
    unfold nodedEdges
    split
    · exact ⟨_, rfl, rfl⟩
    · unfold splitSegments
      simp only [isListSplit, if_true]
      obtain ⟨r, hr⟩ := list_once .list tree sr _ hnr 0
      exact ⟨r, splitLoop_mono _ _ _ _ _ _ _ hr _ (by omega), hr⟩
  obtain ⟨hp, -⟩ := slice_pieces order ho false rule .list sr tree ht sc hsc fuel x.sortE hE shape paths contours
    (FragOk.list _ _) r hr (Or.inl rfl)
  have hd := string_drift ht (FragOk.list sr _) hns hin hr1 (Or.inl rfl)
  have hcut := C67_slice_by x hok hs order ho rule .list sr tree ht sc hsc fuel hE shape paths contours
    (FragOk.list _ _) r hr (Or.inl rfl) shapes s1
  have hz : ∀ a b : ℚ, |a - b| ≤ 0 → a = b := fun a b hab => by
    have := abs_nonpos_iff.1 hab
    linarith
  refine ⟨shapes, _, s1, ⟨?_, ?_, ?_, ?_⟩, hcut.same, fun q q' hq hq' => hcut.apart q q' ?_ ?_⟩
  · intro e he
    obtain ⟨s, hs, rfl⟩ := List.mem_map.1 he
    exact Pt.ne_of_lt (hp.lt s hs)
  · intro e he f hf hne
    obtain ⟨s, hs, rfl⟩ := List.mem_map.1 he
    obtain ⟨t, ht', rfl⟩ := List.mem_map.1 hf
    exact hp.meet hs ht' (by rintro rfl; exact hne rfl)
  · intro e he q hq
    obtain ⟨s, hs, rfl⟩ := List.mem_map.1 he
    obtain ⟨l, hl, p, p1, p2, p3⟩ := hd.all s hs q hq
    refine ⟨l, hl, ?_⟩
    have : q = p := by
      cases q; cases p
      rw [QPt.mk.injEq]
      exact ⟨hz _ _ p2, hz _ _ p3⟩
    rw [this]; exact p1
  · intro l hl hne q hq
    obtain ⟨s, hs, -, q', h1, h2, h3⟩ := hd.follows l hl hne q hq
    refine ⟨_, List.mem_map.2 ⟨s, hs, rfl⟩, ?_⟩
    have : q = q' := by
      cases q; cases q'
      rw [QPt.mk.injEq]
      exact ⟨hz _ _ h2, hz _ _ h3⟩
    rw [this]; exact h1
  · rw [string_noded_input hns hr hnr]; exact hq
  · rw [string_noded_input hns hr hnr]; exact hq'

/-! ### examples -/

def cutSquare : List (List Pt) := [[⟨0, 0⟩, ⟨40, 0⟩, ⟨40, 40⟩, ⟨0, 40⟩]]

/-- The hypotheses of `C67_slice_extract`, `C67_slice_by` and `C67_slice_total` are met: a line through the square cuts it. -/
example : exRaw.bind.Ok ∧ SortsByA exRaw.sortI ∧ OrderOk exOrder ∧ EndSort exRaw.sortE ∧
    (∀ c ∈ cutSquare, NotClosedExplicitly c) ∧ (∀ c ∈ cutSquare ++ [[⟨20, -5⟩, ⟨20, 45⟩]] ++ [], ∀ p ∈ c, InRange p) ∧
    WholeCrossings (cutSquare.flatMap polyEdges ++ userLines [[⟨20, -5⟩, ⟨20, 45⟩]] []) ∧
    (nodedEdges .list ⟨0, 1⟩ (bruteTree CountStr) 5 (stringSegments cutSquare [[⟨20, -5⟩, ⟨20, 45⟩]] [])).isSome ∧
    sliceBy exRaw exOrder .nonZero .list ⟨0, 1⟩ (bruteTree CountStr) listScanOracle 5 cutSquare [[⟨20, -5⟩, ⟨20, 45⟩]] [] =
      some [[[⟨20, 0⟩, ⟨20, 40⟩, ⟨0, 40⟩, ⟨0, 0⟩]], [[⟨40, 0⟩, ⟨40, 40⟩, ⟨20, 40⟩, ⟨20, 0⟩]]] :=
  ⟨exRaw_assumed.2.bind, exRaw_assumed.2.sortI, orderOk_area, exRaw_assumed.1.sortE, by decide, by unfold InRange; decide,
    decide_whole (by decide +kernel), by decide +kernel, by decide +kernel⟩

/-- A line that ends within the square does not cut it. -/
example : sliceBy exRaw exOrder .nonZero .list ⟨0, 1⟩ (bruteTree CountStr) listScanOracle 5 cutSquare [[⟨20, -5⟩, ⟨20, 20⟩]] [] =
    some [[[⟨20, 0⟩, ⟨40, 0⟩, ⟨40, 40⟩, ⟨0, 40⟩, ⟨0, 0⟩]]] := by decide +kernel

end IOverlay
