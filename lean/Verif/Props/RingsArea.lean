/-
C83 with an area limit: contours that do not touch are filtered by their own area.
-/
import Verif.Props.RingsExact
import Verif.Props.Filter
import Verif.Props.ProvenanceLines

namespace IOverlay

/-- No vertex of separate contours is the left end of more than two of their edges. -/
theorem rings_twoRight {cs : List (List Pt)} (h : SeparateRings cs) {L : List (Pt × Pt)} (hn : L.Nodup)
    (hL : ∀ e ∈ L, e ∈ (cs.flatMap polyEdges).map leftToRight) : AtMostTwoRight L := by
  intro p
  have hsub : ∀ e ∈ L.filter fun e => decide (e.1 = p), e ∈ L ∧ e.1 = p := by
    intro e he
    rw [List.mem_filter, decide_eq_true_eq] at he
    exact he
  have hnd : (L.filter fun e => decide (e.1 = p)).Nodup := hn.filter _
  generalize L.filter (fun e => decide (e.1 = p)) = F at hsub hnd
  rcases F with _ | ⟨e0, F⟩
  · simp
  -- every edge of `F` is an edge of one contour
  have origin : ∀ e ∈ e0 :: F, ∃ c ∈ cs, ∃ f ∈ polyEdges c, e = leftToRight f ∧ (f.1 = p ∨ f.2 = p) := by
    intro e he
    obtain ⟨h1, h2⟩ := hsub e he
    obtain ⟨f, hf, rfl⟩ := List.mem_map.1 (hL e h1)
    obtain ⟨c, hc, hfc⟩ := List.mem_flatMap.1 hf
    refine ⟨c, hc, f, hfc, rfl, ?_⟩
    unfold leftToRight at h2
    split at h2
    · exact Or.inl h2
    · exact Or.inr h2
  obtain ⟨c, hc, f, hf, -, hp⟩ := origin e0 (by simp)
  have hpc : p ∈ c := by
    rcases hp with rfl | rfl
    · exact (polyEdges_mem hf).1
    · exact (polyEdges_mem hf).2
  obtain ⟨q, hq⟩ := polyEdges_start hpc
  obtain ⟨f', hf', hs⟩ := List.mem_map.1 ((polyEdges_snd c).mem_iff.2 hpc)
  have hcn := (List.nodup_flatten.1 h.vertices).1 c hc
  have hin : (e0 :: F) ⊆ [leftToRight (p, q), leftToRight f'] := by
    intro e he
    obtain ⟨d, hd, g, hg, rfl, hgp⟩ := origin e he
    have hpd : p ∈ d := by
      rcases hgp with rfl | rfl
      · exact (polyEdges_mem hg).1
      · exact (polyEdges_mem hg).2
    obtain rfl := same_ring h.vertices hc hd hpc hpd
    rw [List.mem_cons, List.mem_singleton]
    rcases hgp with hgp | hgp
    · left
      have : g = (p, q) := by
        refine Prod.ext hgp ?_
        refine polyEdges_succ hcn (p := p) ?_ hq
        rw [← hgp]; exact hg
      rw [this]
    · right
      have : g = f' := by
        refine Prod.ext ?_ (hgp.trans hs.symm)
        refine polyEdges_pred hcn (q := p) ?_ ?_
        · rw [← hgp]; exact hg
        · rw [← hs]; exact hf'
      rw [this]
  exact (hnd.subperm hin).length_le

theorem doubleArea_rotated {d c : List Pt} (h : d ~r c) : doubleArea d = doubleArea c := by
  rw [doubleArea_steps, doubleArea_steps]
  unfold stepsArea
  exact ((polyEdges_rotated h).map _).sum_eq

theorem doubleArea_reverse (c : List Pt) : doubleArea c.reverse = - doubleArea c := by
  rw [doubleArea_steps, doubleArea_steps]
  unfold stepsArea
  rw [((polyEdges_reverse c).map _).sum_eq, List.map_map]
  generalize polyEdges c = L
  induction L with
  | nil => rfl
  | cons e L ih =>
    rw [List.map_cons, List.map_cons, List.sum_cons, List.sum_cons, ih]
    simp only [Function.comp, Prod.fst_swap, Prod.snd_swap]
    ring

/-- The contours returned have the area of the given ones. -/
theorem RingOf.large {d c : List Pt} (h : RingOf d c) (minArea : Nat) : LargeEnough minArea d ↔ LargeEnough minArea c := by
  have hlen : d.length = c.length := by
    rcases h with h | h
    · exact h.perm.length_eq
    · rw [h.perm.length_eq, List.length_reverse]
  have hden : (doubleArea d).natAbs = (doubleArea c).natAbs := by
    rcases h with h | h
    · rw [doubleArea_rotated h]
    · rw [doubleArea_rotated h, doubleArea_reverse, Int.natAbs_neg]
  unfold LargeEnough
  rw [hlen, hden]

open Classical in
/-- C83 (area limit): with an area limit exactly those contours are returned that come back without limit and whose area is
large enough (holes are lost with the outer contours if none of these is large enough); every returned contour is one of the
given contours, and that one is large enough. -/
theorem C83_area {k : Config} {x : Externals} (ha : Assumed k x) (hcl : CleanKeepsTurns x.clean) {subj clip : List (List Pt)}
    (hf : FragFor k subj clip) (hcs : SeparateRings (subj ++ clip)) (r : OverlayRule) (rule : FillRule) (cw : Bool) (minArea : Nat)
    {all shapes : List (List (List Pt))} (h0 : overlayCustom k x r rule cw 0 (overlaySegments subj clip) = some all)
    (h : overlayCustom k x r rule cw minArea (overlaySegments subj clip) = some shapes) :
    outerContours shapes = (outerContours all).filter (fun c => decide (LargeEnough minArea c)) ∧
    (shapes = [] ∨ (holeContours shapes).Perm ((holeContours all).filter fun c => decide (LargeEnough minArea c))) ∧
    ∀ d ∈ shapes.flatten, ∃ c ∈ subj ++ clip, RingOf d c ∧ LargeEnough minArea c := by
  obtain ⟨links, hl, -⟩ := Option.bind_eq_some_iff.1 (by unfold overlayCustom at h; exact h)
  obtain ⟨segs, -, hn, e⟩ := buildBoolean_spec ha.tree ha.scan hf hl
  have hsegs := rings_edges hcs ha.tree hf hn
  have htwo : AtMostTwoRight (links.map fun l => (l.a, l.b)) := by
    refine rings_twoRight hcs ?_ ?_
    · rw [e, List.map_map]
      have hnd : (segs.map fun s => (s.a, s.b)).Nodup := by
        rw [hsegs, List.Nodup, List.pairwise_map]
        refine (start_sorted (overlaySegments subj clip : List (Seg CountBool))).imp ?_
        intro s t hst heq
        simp only [Prod.mk.injEq] at heq
        rcases hst with h | ⟨_, h⟩
        · rw [heq.1] at h; exact Pt.lt_irrefl _ h
        · rw [heq.2] at h; exact Pt.lt_irrefl _ h
      exact (List.filter_sublist.map _).nodup hnd
    · intro p hp
      rw [e, List.map_map] at hp
      obtain ⟨s, hs, rfl⟩ := List.mem_map.1 hp
      have hs' := (List.mem_filter.1 hs).1
      rw [hsegs] at hs'
      obtain ⟨t, t1, t2, t3⟩ := mergeIfNeeded_edges _ s hs'
      rw [(sortSegs_perm _).mem_iff] at t1
      refine (rings_registered hcs).mem_iff.1 (List.mem_map.2 ⟨t, t1, ?_⟩)
      simp only [Function.comp, t2, t3]
  obtain ⟨c1, c2, -⟩ := C24_area_filter k x ha r rule cw minArea subj clip hf links hl htwo all shapes h0 h
  refine ⟨c1, c2, ?_⟩
  intro d hd
  have hm : d ∈ all.flatten ∧ LargeEnough minArea d := by
    rw [(take_drop_perm all).mem_iff, List.mem_append]
    rw [(take_drop_perm shapes).mem_iff, List.mem_append] at hd
    rcases hd with hd | hd
    · rw [c1, List.mem_filter, decide_eq_true_eq] at hd
      exact ⟨Or.inl hd.1, hd.2⟩
    · rcases c2 with c2 | c2
      · rw [c2] at hd; simp [holeContours] at hd
      · rw [c2.mem_iff, List.mem_filter, decide_eq_true_eq] at hd
        exact ⟨Or.inr hd.1, hd.2⟩
  obtain ⟨c, hc, hr⟩ := (C83_rings ha hcl hf hcs r rule cw h0).1 d hm.1
  exact ⟨c, hc, hr, (hr.large minArea).1 hm.2⟩

/-- The hypotheses of `C83_area` are met; the limit 50 removes a triangle of area 13. -/
example : Assumed exConfig exRaw ∧ CleanKeepsTurns exRaw.clean ∧ FragFor exConfig (exRings.take 1) (exRings.drop 1) ∧
    SeparateRings (exRings.take 1 ++ exRings.drop 1) ∧
    overlayCustom exConfig exRaw .difference .nonZero false 50 (overlaySegments (exRings.take 1) (exRings.drop 1)) =
      some [[[⟨0, 10⟩, ⟨0, 0⟩, ⟨10, 0⟩, ⟨10, 10⟩]]] :=
  ⟨exRaw_assumed.1, fun _ _ => rfl, FragOk.list _ _, exRings_separate, by decide +kernel⟩

end IOverlay
