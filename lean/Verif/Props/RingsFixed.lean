/-
C83: a result made of contours that do not touch is its own simplification, point for point.
-/
import Verif.Props.RingsExact
import Verif.Props.Same

namespace IOverlay

theorem BothSides.swap {a b : Pt} {P : QPt → QPt → Prop} (h : BothSides (a, b) P) : BothSides (b, a) P := by
  intro m hm
  obtain ⟨t, t0, t1, hx, hy⟩ := hm
  obtain ⟨ε, p, hε⟩ := h m ⟨1 - t, by linarith, by linarith, by rw [hx]; ring, by rw [hy]; ring⟩
  refine ⟨ε, p, fun δ d0 d1 => ?_⟩
  have l : leftOf b a m δ = leftOf a b m δ := by unfold leftOf; simp only [eq_comm]
  have r : rightOf b a m δ = rightOf a b m δ := by unfold rightOf; simp only [eq_comm]
  have := hε δ d0 d1
  dsimp only at this ⊢
  rw [l, r]
  exact this

theorem BothSides.meet {e : Pt × Pt} {P Q : QPt → QPt → Prop} (h : BothSides e P) (h' : BothSides e Q) : ∃ p q, P p q ∧ Q p q := by
  have hm : inSeg ⟨(e.1.x : ℚ) + 1 / 2 * ((e.2.x : ℚ) - e.1.x), (e.1.y : ℚ) + 1 / 2 * ((e.2.y : ℚ) - e.1.y)⟩ e.1 e.2 :=
    ⟨1 / 2, by norm_num, by norm_num, by ring, by ring⟩
  obtain ⟨ε1, p1, h1⟩ := h _ hm
  obtain ⟨ε2, p2, h2⟩ := h' _ hm
  have hpos : 0 < min ε1 ε2 := lt_min p1 p2
  exact ⟨_, _, h1 (min ε1 ε2 / 2) (by linarith) (lt_of_lt_of_le (by linarith) (min_le_left ε1 ε2)),
    h2 (min ε1 ε2 / 2) (by linarith) (lt_of_lt_of_le (by linarith) (min_le_right ε1 ε2))⟩

/-- The edges kept by an operation on separate contours. -/
theorem rings_wind {subj clip : List (List Pt)} (hcs : SeparateRings (subj ++ clip)) (q : QPt) :
    segsWind CountBool.subj (mergeIfNeeded (sortSegs (overlaySegments subj clip : List (Seg CountBool)))) q = polysWind subj q ∧
    segsWind CountBool.clip (mergeIfNeeded (sortSegs (overlaySegments subj clip : List (Seg CountBool)))) q = polysWind clip q := by
  have hnd := (List.nodup_flatten.1 hcs.vertices).1
  have hnc : ∀ c ∈ subj ++ clip, NotClosedExplicitly c := fun c hc => not_closed_of_nodup (hnd c hc) (hcs.three c hc)
  obtain ⟨w1, w2, -⟩ := C04_overlay_winding subj clip (fun c hc => hnc c (List.mem_append_left _ hc))
    (fun c hc => hnc c (List.mem_append_right _ hc)) q
  rw [← w1, ← w2]
  constructor
  · rw [segsWind_eq_segSum, segsWind_eq_segSum, mergeIfNeeded_segSum isComp_subj, segSum_perm _ _ (sortSegs_perm _)]
  · rw [segsWind_eq_segSum, segsWind_eq_segSum, mergeIfNeeded_segSum isComp_clip, segSum_perm _ _ (sortSegs_perm _)]

theorem rings_links {k : Config} {x : Externals} (ha : Assumed k x) {subj clip : List (List Pt)} (hf : FragFor k subj clip)
    (hcs : SeparateRings (subj ++ clip)) {r : OverlayRule} {rule : FillRule} {links : List Link}
    (hl : buildBoolean (isIncluded r) rule k.st k.sr k.tree k.scan k.fuel (overlaySegments subj clip) = some links) (a b : Pt) :
    (a, b) ∈ linkEnds links ↔ a < b ∧ (∃ c ∈ subj ++ clip, SideOf c (a, b)) ∧
      BothSides (a, b) fun p q => ¬ (Selected r rule subj clip p ↔ Selected r rule subj clip q) := by
  obtain ⟨segs, hok, hn, e⟩ := buildBoolean_spec ha.tree ha.scan hf hl
  have hsegs := rings_edges hcs ha.tree hf hn
  have hw : ∀ q, segsWind CountBool.subj segs q = polysWind subj q ∧ segsWind CountBool.clip segs q = polysWind clip q := by
    rw [hsegs]; exact rings_wind hcs
  have hmem : (a, b) ∈ linkEnds links ↔ ∃ s ∈ segs, keptB rule r segs s = true ∧ s.a = a ∧ s.b = b := by
    unfold linkEnds
    rw [e, List.map_map]
    constructor
    · intro h
      obtain ⟨s, hs, h⟩ := List.mem_map.1 h
      rw [List.mem_filter, isIncluded_fillOf] at hs
      simp only [Function.comp, Prod.mk.injEq] at h
      exact ⟨s, hs.1, hs.2, h.1, h.2⟩
    · rintro ⟨s, h1, h2, rfl, rfl⟩
      exact List.mem_map.2 ⟨s, List.mem_filter.2 ⟨h1, by rw [isIncluded_fillOf]; exact h2⟩, rfl⟩
  rw [hmem]
  constructor
  · rintro ⟨s, h1, h2, rfl, rfl⟩
    refine ⟨hok.planar.lt s h1, ?_, ?_⟩
    · rw [hsegs] at h1
      obtain ⟨t, t1, t2, t3⟩ := mergeIfNeeded_edges _ s h1
      rw [(sortSegs_perm _).mem_iff] at t1
      rw [t2, t3]
      exact registered_side hcs t t1
    · intro m hm
      obtain ⟨ε, p, h⟩ := edge_sides hok hw (rule := rule) (r := r) h1 (Or.inl rfl) m hm
      refine ⟨ε, p, fun δ d0 d1 => ?_⟩
      obtain ⟨x1, x2⟩ := h δ d0 d1
      rw [x1, x2]
      unfold keptB at h2
      revert h2
      cases ruleAt rule r (botP segs s) <;> cases ruleAt rule r (botP segs s + cpair s) <;> simp
  · rintro ⟨hab, ⟨c, hc, hside⟩, hb⟩
    obtain ⟨s, hs, hse⟩ : ∃ s ∈ segs, (a, b) = (s.a, s.b) ∨ (a, b) = (s.b, s.a) := by
      rw [hsegs]
      rcases hside with h | h
      · exact rings_segs hcs hc h
      · obtain ⟨s, h1, h2⟩ := rings_segs hcs hc h
        refine ⟨s, h1, ?_⟩
        simp only [Prod.swap, Prod.mk.injEq] at h2 ⊢
        tauto
    have hlt := hok.planar.lt s hs
    have hends : s.a = a ∧ s.b = b := by
      simp only [Prod.mk.injEq] at hse
      rcases hse with ⟨h1, h2⟩ | ⟨h1, h2⟩
      · exact ⟨h1.symm, h2.symm⟩
      · rw [h1, h2] at hab
        exact absurd hab (Pt.lt_asymm hlt)
    obtain ⟨p, q, h1, h2⟩ := hb.meet (edge_sides hok hw (rule := rule) (r := r) hs hse)
    refine ⟨s, hs, ?_, hends⟩
    rw [h2.1, h2.2] at h1
    unfold keptB
    revert h1
    cases ruleAt rule r (botP segs s) <;> cases ruleAt rule r (botP segs s + cpair s) <;> simp

section
variable {k : Config} {x : Externals} (ha : Assumed k x) (hcl : CleanKeepsTurns x.clean) {subj clip : List (List Pt)}
  (hf : FragFor k subj clip) (hcs : SeparateRings (subj ++ clip)) (r : OverlayRule) (rule : FillRule) (cw : Bool)
  {shapes : List (List (List Pt))} (hs : overlayCustom k x r rule cw 0 (overlaySegments subj clip) = some shapes)
include ha hcl hf hcs hs

/-- Returned contours do not touch either. -/
theorem rings_result : SeparateRings shapes.flatten := by
  obtain ⟨h1, h2⟩ := C83_rings ha hcl hf hcs r rule cw hs
  have hnd := (List.nodup_flatten.1 hcs.vertices).1
  have hdn : ∀ d ∈ shapes.flatten, d.Nodup := by
    intro d hd
    obtain ⟨c, hc, hr⟩ := h1 d hd
    rcases hr with hr | hr
    · exact hr.perm.nodup_iff.2 (hnd c hc)
    · exact hr.perm.nodup_iff.2 (List.nodup_reverse.2 (hnd c hc))
  have h3 : ∀ d ∈ shapes.flatten, 3 ≤ d.length := by
    intro d hd
    obtain ⟨c, hc, hr⟩ := h1 d hd
    have := hcs.three c hc
    rcases hr with hr | hr
    · rw [hr.perm.length_eq]; exact this
    · rw [hr.perm.length_eq, List.length_reverse]; exact this
  have hv : shapes.flatten.flatten.Nodup := List.nodup_flatten.2 ⟨hdn, h2⟩
  refine ⟨h3, hv, ?_, ?_⟩
  · intro d hd
    obtain ⟨c, hc, hr⟩ := h1 d hd
    exact hr.turns (hcs.turns c hc)
  · intro e he f hf' hne
    obtain ⟨d, hd, he⟩ := List.mem_flatMap.1 he
    obtain ⟨d', hd', hf'⟩ := List.mem_flatMap.1 hf'
    have hns : e ≠ f.swap := by
      rintro rfl
      have m1 := (polyEdges_mem he).1
      have m2 := (polyEdges_mem hf').2
      obtain rfl := same_ring hv hd hd' m1 m2
      exact no_back (hdn d hd) (h3 d hd) (p := f.1) (q := f.2) hf' he
    have given : ∀ {d : List Pt}, d ∈ shapes.flatten → ∀ {e}, e ∈ polyEdges d →
        e ∈ (subj ++ clip).flatMap polyEdges ∨ e.swap ∈ (subj ++ clip).flatMap polyEdges := by
      intro d hd e he
      obtain ⟨c, hc, hr⟩ := h1 d hd
      rcases (hr.side e).1 (Or.inl he) with h | h
      · exact Or.inl (List.mem_flatMap.2 ⟨c, hc, h⟩)
      · exact Or.inr (List.mem_flatMap.2 ⟨c, hc, h⟩)
    rcases given hd he with g1 | g1 <;> rcases given hd' hf' with g2 | g2
    · exact hcs.meet e g1 f g2 hne
    · exact (hcs.meet e g1 f.swap g2 hns).swap_right
    · exact (hcs.meet e.swap g1 f g2 fun h => hns (by rw [← h, Prod.swap_swap])).swap_left
    · exact (hcs.meet e.swap g1 f.swap g2 fun h => hne (Prod.swap_injective h)).swap_left.swap_right

/-- C83 (fixed point): simplifying the result of an operation on contours that do not touch returns exactly that result: the same
shapes in the same order, each contour with the same vertices from the same start. -/
theorem C83_fixed {k' : Config} (ha' : Assumed k' x) (hf' : FragFor k' shapes.flatten []) {rule' : FillRule}
    (hrule : rule' = .evenOdd ∨ rule' = .nonZero) {again : List (List (List Pt))}
    (h' : overlayCustom k' x .subject rule' cw 0 (overlaySegments shapes.flatten []) = some again) : again = shapes := by
  have hcs' : SeparateRings (shapes.flatten ++ []) := by
    rw [List.append_nil]; exact rings_result ha hcl hf hcs r rule cw hs
  obtain ⟨links, hl, -⟩ := Option.bind_eq_some_iff.1 (by unfold overlayCustom at hs; exact hs)
  obtain ⟨links', hl', -⟩ := Option.bind_eq_some_iff.1 (by unfold overlayCustom at h'; exact h')
  have hsel : ∀ q, Selected .subject rule' shapes.flatten [] q ↔ Selected r rule subj clip q := by
    intro q
    obtain ⟨-, segs, n1, n2⟩ := C41_overlay k x ha r rule cw subj clip hf shapes hs
    have hw := rings_wind hcs q
    rw [← rings_edges hcs ha.tree hf n1] at hw
    have := n2 q
    rw [hw.1, hw.2] at this
    unfold Selected
    rw [this]
    by_cases hb : r.op (rule.inside (polysWind subj q)) (rule.inside (polysWind clip q)) = true
    · simp only [hb, if_true, mul_one, iff_true]
      unfold OverlayRule.op outerTurn
      rcases hrule with rfl | rfl <;> cases cw <;> rfl
    · rw [Bool.not_eq_true] at hb
      rw [hb]
      simp only [Bool.false_eq_true, if_false, mul_zero, iff_false]
      unfold OverlayRule.op
      rcases hrule with rfl | rfl <;> exact fun h => Bool.noConfusion h
  have hE : ∀ e, e ∈ linkEnds links ↔ e ∈ linkEnds links' := by
    rintro ⟨a, b⟩
    rw [rings_links ha hf hcs hl, rings_links ha' hf' hcs' hl', List.append_nil]
    simp only [hsel]
    constructor
    · rintro ⟨hab, ⟨c, hc, hside⟩, hb⟩
      refine ⟨hab, ?_, hb⟩
      by_cases hret : ∃ d ∈ shapes.flatten, RingOf d c
      · obtain ⟨d, hd, hr⟩ := hret
        exact ⟨d, hd, (hr.side _).2 hside⟩
      · exfalso
        have : BothSides (a, b) fun p q => (Selected r rule subj clip p ↔ Selected r rule subj clip q) := by
          rcases hside with h | h
          · exact (C83_exact ha hcl hf hcs r rule cw hs hc h).2 hret
          · exact ((C83_exact ha hcl hf hcs r rule cw hs hc h).2 hret).swap
        obtain ⟨p, q, h1, h2⟩ := hb.meet this
        exact h1 h2
    · rintro ⟨hab, ⟨d, hd, hside⟩, hb⟩
      obtain ⟨c, hc, hr⟩ := (C83_rings ha hcl hf hcs r rule cw hs).1 d hd
      exact ⟨hab, ⟨c, hc, (hr.side _).1 hside⟩, hb⟩
  have := C68_determined k k' x x ha ha' rfl rfl rfl r .subject rule rule' cw 0 subj clip _ [] hf hf' links links' hl hl' hE
    (Or.inl rfl)
  rw [hs, h'] at this
  exact (Option.some.inj this).symm

end

/-- The hypotheses of `C83_fixed` are met. -/
example : Assumed exConfig exRaw ∧ CleanKeepsTurns exRaw.clean ∧ SeparateRings (exRings.take 1 ++ exRings.drop 1) ∧
    (let shapes : List (List (List Pt)) := [[[⟨0, 10⟩, ⟨0, 0⟩, ⟨10, 0⟩, ⟨10, 10⟩], [⟨2, 2⟩, ⟨5, 7⟩, ⟨8, 3⟩]]]
    overlayCustom exConfig exRaw .difference .nonZero false 0 (overlaySegments (exRings.take 1) (exRings.drop 1)) = some shapes ∧
    FragFor exConfig shapes.flatten [] ∧
    overlayCustom exConfig exRaw .subject .evenOdd false 0 (overlaySegments shapes.flatten []) = some shapes) :=
  ⟨exRaw_assumed.1, fun _ _ => rfl, exRings_separate, by decide +kernel, FragOk.list _ _, by decide +kernel⟩

end IOverlay
