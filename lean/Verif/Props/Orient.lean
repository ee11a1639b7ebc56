/-
Properties C41 (orientation: every contour winds at most once around any point, outer contours in the
requested direction, holes in the opposite one, all together exactly once around every point of the result)
and C42 (contours are nested or disjoint).
-/
import Verif.Keys
import Verif.Props.Extract

namespace IOverlay

/-- A shape: an outer contour winding in the requested direction, then holes winding the other way. -/
def OrientedShape (cw : Bool) (sh : List (List Pt)) : Prop :=
  ∃ outer holes, sh = outer :: holes ∧ WindsOnce (outerTurn cw) outer ∧ ∀ c ∈ holes, WindsOnce (- outerTurn cw) c

section
variable {rule : FillRule} {r : OverlayRule} {segs : List (Seg CountBool)} {g : Graph} {V : List Pt}
  {vis : List Bool} (h : RunOk rule r segs g V vis)
include h

theorem RunOk.shapes_oriented (cw : Bool) {x : Externals} (hc : CleanOk x.clean) {shapes : List (List (List Pt))}
    (he : IOverlay.extract x g r cw 0 vis = some shapes) :
    (∀ q, polysWind shapes.flatten q = outerTurn cw *
      if r.op (rule.inside (segsWind CountBool.subj segs q)) (rule.inside (segsWind CountBool.clip segs q)) then 1 else 0) ∧
    (∀ sh ∈ shapes, OrientedShape cw sh) ∧ shapes.flatten.Pairwise Nested := by
  unfold IOverlay.extract at he
  obtain ⟨e, e1, he⟩ := Option.bind_eq_some_iff.1 he
  dsimp only at he
  obtain ⟨fs, f1, f2, f3, f4, f5, f6⟩ := h.oriented cw hc e1
  have hall : (e.shapes ++ e.holes).Perm (fs.map fun f => (x.clean f.raw).1) := by
    rw [f1, f2, ← List.map_append]
    refine List.Perm.map _ ?_
    refine List.Perm.trans ?_ (List.filter_append_perm (fun w : Found => !w.hole) fs)
    refine List.Perm.append_left _ ?_
    refine List.Perm.of_eq (List.filter_congr fun w _ => ?_)
    simp
  have e2 : ∀ l : List (List Pt), (l.map fun c => [c]).flatten = l := by
    intro l; induction l <;> simp_all
  have ho : ∀ c ∈ e.shapes, WindsOnce (outerTurn cw) c := by
    intro c hc'
    rw [f1] at hc'
    obtain ⟨f, hf, rfl⟩ := List.mem_map.1 hc'
    rw [List.mem_filter] at hf
    have := f4 f hf.1
    have hh : f.hole = false := by simpa using hf.2
    rw [hh] at this
    exact this
  have hh : ∀ c ∈ e.holes, WindsOnce (- outerTurn cw) c := by
    intro c hc'
    rw [f2] at hc'
    obtain ⟨f, hf, rfl⟩ := List.mem_map.1 hc'
    rw [List.mem_filter] at hf
    have := f4 f hf.1
    rw [hf.2] at this
    exact this
  have hmain : shapes.flatten.Perm (e.shapes ++ e.holes) ∧ ∀ sh ∈ shapes, OrientedShape cw sh := by
    by_cases hs : e.shapes = []
    · have hw : fs = [] := by
        rcases fs with _ | ⟨f, fs⟩
        · rfl
        · have := f3 f rfl
          rw [f1, List.filter_cons] at hs
          simp [this] at hs
      have hh : e.holes = [] := by rw [f2, hw]; rfl
      rw [hs, hh] at he
      have : shapes = [] := by
        unfold joinSortedHoles at he
        simpa using he.symm
      rw [this, hs, hh]
      exact ⟨List.Perm.refl _, by simp⟩
    · obtain ⟨p, parents, -, -, p3⟩ := C25_join_sorted _ _ _ _ _ _ _ (by simpa using hs) he
      rw [e2] at p
      refine ⟨p, ?_⟩
      intro sh hsh
      rw [p3] at hsh
      obtain ⟨i, hi, rfl⟩ := List.mem_mapIdx.1 hsh
      rw [List.getElem_map]
      refine ⟨e.shapes[i]'(by simpa using hi), _, rfl, ho _ (List.getElem_mem _), ?_⟩
      intro c hc'
      obtain ⟨y, hy, rfl⟩ := List.mem_map.1 hc'
      rw [List.mem_filter] at hy
      exact hh _ (List.of_mem_zip hy.1).1
  refine ⟨?_, hmain.2, ?_⟩
  · intro q
    rw [polysWind_perm (hmain.1.trans hall)]
    exact f6 q
  · exact (hmain.1.trans hall).symm.pairwise f5 (fun h => Nested.symm h)

end

/-- C41 (one-shot overlay, no area limit): the returned contours together wind around a point exactly once,
in the requested direction, if the overlay rule holds there, and not at all otherwise; every shape is an outer
contour winding at most once in that direction followed by holes winding at most once in the opposite one. -/
theorem C41_overlay (k : Config) (x : Externals) (ha : Assumed k x) (r : OverlayRule) (rule : FillRule)
    (cw : Bool) (subj clip : List (List Pt)) (hf : FragFor k subj clip) (shapes : List (List (List Pt)))
    (h : overlayCustom k x r rule cw 0 (overlaySegments subj clip) = some shapes) :
    (∀ sh ∈ shapes, OrientedShape cw sh) ∧
    ∃ segs, nodedEdges k.st k.sr k.tree k.fuel (overlaySegments subj clip) = some segs ∧
      ∀ q : QPt, polysWind shapes.flatten q = outerTurn cw *
        if r.op (rule.inside (segsWind CountBool.subj segs q)) (rule.inside (segsWind CountBool.clip segs q))
        then 1 else 0 := by
  obtain ⟨segs, g, V, vis, h1, h2, h3⟩ := extract_oneShot ha hf h
  obtain ⟨q1, q2, -⟩ := h2.shapes_oriented cw ha.clean h3
  exact ⟨q2, segs, h1, q1⟩

/-- C41 (prebuilt graph, any rule extracted from it). -/
theorem C41_graph (k : Config) (x : Externals) (ha : Assumed k x) (r : OverlayRule) (rule : FillRule)
    (cw : Bool) (subj clip : List (List Pt)) (hf : FragFor k subj clip) (g : Graph) (shapes : List (List (List Pt)))
    (hg : intoGraph k x rule (overlaySegments subj clip) = some g)
    (h : extractShapesCustom x g r cw 0 = some shapes) :
    (∀ sh ∈ shapes, OrientedShape cw sh) ∧
    ∃ segs, nodedEdges k.st k.sr k.tree k.fuel (overlaySegments subj clip) = some segs ∧
      ∀ q : QPt, polysWind shapes.flatten q = outerTurn cw *
        if r.op (rule.inside (segsWind CountBool.subj segs q)) (rule.inside (segsWind CountBool.clip segs q))
        then 1 else 0 := by
  obtain ⟨segs, V, vis, h1, h2, h3⟩ := extract_graph ha hf hg h
  obtain ⟨q1, q2, -⟩ := h2.shapes_oriented cw ha.clean h3
  exact ⟨q2, segs, h1, q1⟩

/-- C41 (against the input itself): if no crossing point had to be rounded, the winding number of the result
at a point is that of the requested direction where the overlay rule holds for the given contours, and zero
elsewhere. -/
theorem C41_overlay_input (k : Config) (x : Externals) (ha : Assumed k x) (r : OverlayRule) (rule : FillRule)
    (cw : Bool) (subj clip : List (List Pt)) (hf : FragFor k subj clip) (shapes : List (List (List Pt)))
    (hst : k.st = .list)
    (hns : ∀ c ∈ subj, NotClosedExplicitly c) (hnc : ∀ c ∈ clip, NotClosedExplicitly c)
    (hx : (roundMarks k.sr.radius (listPairs (mergeIfNeeded (sortSegs
      (overlaySegments subj clip : List (Seg CountBool)))))).2 = false)
    (h : overlayCustom k x r rule cw 0 (overlaySegments subj clip) = some shapes) (q : QPt) :
    polysWind shapes.flatten q = outerTurn cw *
      if r.op (rule.inside (polysWind subj q)) (rule.inside (polysWind clip q)) then 1 else 0 := by
  obtain ⟨-, segs, h1, h2⟩ := C41_overlay k x ha r rule cw subj clip hf shapes h
  rw [hst] at h1
  have e := noded_input k.sr k.tree k.fuel subj clip segs hns hnc hx h1 q
  rw [h2, e.1, e.2]

/-- C42 (one-shot overlay, no area limit): any two returned contours have disjoint interiors, or the interior
of one contains the interior of the other. -/
theorem C42_overlay (k : Config) (x : Externals) (ha : Assumed k x) (r : OverlayRule) (rule : FillRule)
    (cw : Bool) (subj clip : List (List Pt)) (hf : FragFor k subj clip) (shapes : List (List (List Pt)))
    (h : overlayCustom k x r rule cw 0 (overlaySegments subj clip) = some shapes) :
    shapes.flatten.Pairwise Nested := by
  obtain ⟨segs, g, V, vis, h1, h2, h3⟩ := extract_oneShot ha hf h
  exact (h2.shapes_oriented cw ha.clean h3).2.2

/-- C42 (prebuilt graph). -/
theorem C42_graph (k : Config) (x : Externals) (ha : Assumed k x) (r : OverlayRule) (rule : FillRule)
    (cw : Bool) (subj clip : List (List Pt)) (hf : FragFor k subj clip) (g : Graph) (shapes : List (List (List Pt)))
    (hg : intoGraph k x rule (overlaySegments subj clip) = some g)
    (h : extractShapesCustom x g r cw 0 = some shapes) : shapes.flatten.Pairwise Nested := by
  obtain ⟨segs, V, vis, h1, h2, h3⟩ := extract_graph ha hf hg h
  exact (h2.shapes_oriented cw ha.clean h3).2.2

/-! ### witnesses -/

/-- Both directions of the xor of two crossing squares; the two parts touch in two corners. -/
example : Assumed exConfig exExternals ∧
    overlayCustom exConfig exExternals .xor .nonZero true 0
      (overlaySegments crossingSquares.1 crossingSquares.2) =
      some [[[⟨0, 0⟩, ⟨0, 10⟩, ⟨5, 10⟩, ⟨5, 5⟩, ⟨10, 5⟩, ⟨10, 0⟩]],
        [[⟨5, 10⟩, ⟨5, 15⟩, ⟨15, 15⟩, ⟨15, 5⟩, ⟨10, 5⟩, ⟨10, 10⟩]]] := by
  refine ⟨exAssumed, ?_⟩
  decide +kernel

/-- A square with a hole, clockwise. -/
example : overlayCustom exConfig exExternals .subject .evenOdd true 0
    (overlaySegments [[⟨0, 0⟩, ⟨30, 0⟩, ⟨30, 30⟩, ⟨0, 30⟩], [⟨10, 10⟩, ⟨20, 10⟩, ⟨20, 20⟩, ⟨10, 20⟩]] []) =
    some [[[⟨0, 0⟩, ⟨0, 30⟩, ⟨30, 30⟩, ⟨30, 0⟩], [⟨10, 20⟩, ⟨10, 10⟩, ⟨20, 10⟩, ⟨20, 20⟩]]] := by
  decide +kernel

end IOverlay
