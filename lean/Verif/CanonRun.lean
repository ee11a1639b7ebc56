/-
The edges found for the contours of a result again: all are kept, and the boundary turns at every vertex. C69.
-/
import Verif.Canon
import Verif.Corners
import Verif.Props.Chain
import Verif.Props.Same

namespace IOverlay

/-! ### contours of a result have no spikes -/

/-- Edges of a planar set that leave a point do not overlap. -/
theorem Planar.goesOn {C : Type} {N : List (Seg C)} (hp : Planar N) {s t : Seg C} (hs : s ∈ N) (ht : t ∈ N) (hne : s ≠ t)
    {a b c : Pt} (h1 : (a, b) = (s.a, s.b) ∨ (a, b) = (s.b, s.a)) (h2 : (b, c) = (t.a, t.b) ∨ (b, c) = (t.b, t.a)) :
    GoesOn (a, b, c) := by
  have nab : a ≠ b := by
    have := Pt.ne_of_lt (hp.lt s hs)
    rcases h1 with h | h <;> simp only [Prod.mk.injEq] at h <;> rw [h.1, h.2]
    exacts [this, this.symm]
  have nbc : b ≠ c := by
    have := Pt.ne_of_lt (hp.lt t ht)
    rcases h2 with h | h <;> simp only [Prod.mk.injEq] at h <;> rw [h.1, h.2]
    exacts [this, this.symm]
  have hm : MeetAtEnds a b b c := by
    intro q k1 k2
    have k1' : onSeg q s.a s.b := by
      rcases h1 with h | h <;> simp only [Prod.mk.injEq] at h <;> rw [h.1, h.2] at k1
      exacts [k1, onSeg_symm k1]
    have k2' : onSeg q t.a t.b := by
      rcases h2 with h | h <;> simp only [Prod.mk.injEq] at h <;> rw [h.1, h.2] at k2
      exacts [k2, onSeg_symm k2]
    have := hp.meet hs ht hne q k1' k2'
    constructor
    · rcases h1 with h | h <;> simp only [Prod.mk.injEq] at h <;> rw [h.1, h.2]
      exacts [this.1, this.1.symm]
    · rcases h2 with h | h <;> simp only [Prod.mk.injEq] at h <;> rw [h.1, h.2]
      exacts [this.2, this.2.symm]
  by_contra hg
  unfold GoesOn at hg
  rw [not_or, not_not, not_lt] at hg
  obtain ⟨g1, g2⟩ := hg
  dsimp only at g1 g2
  -- `c` on the line of `a b`
  have hl : qarea b a c.q = 0 := by
    rw [qarea_q]
    have : area2 b a c = 0 := by unfold area2 at g1 ⊢; linear_combination -g1
    exact_mod_cast this
  obtain ⟨τ, hτ⟩ := exists_param nab.symm hl
  have hL : 0 < ((b.x : ℚ) - a.x) * (b.x - a.x) + ((b.y : ℚ) - a.y) * (b.y - a.y) := by
    by_cases hx : a.x = b.x
    · have hy : a.y ≠ b.y := fun e => nab (Pt.ext_iff'.2 ⟨hx, e⟩)
      have : (b.y : ℚ) - a.y ≠ 0 := _root_.sub_ne_zero.2 (by exact_mod_cast hy.symm)
      nlinarith [mul_self_pos.2 this, mul_self_nonneg ((b.x : ℚ) - a.x)]
    · have : (b.x : ℚ) - a.x ≠ 0 := _root_.sub_ne_zero.2 (by exact_mod_cast (Ne.symm hx))
      nlinarith [mul_self_pos.2 this, mul_self_nonneg ((b.y : ℚ) - a.y)]
  have hx := hτ.1
  have hy := hτ.2
  simp only [Pt.q] at hx hy
  have g2' : (((b.x : ℚ) - a.x) * (c.x - b.x) + (b.y - a.y) * (c.y - b.y)) ≤ 0 := by
    have : (b.x - a.x) * (c.x - b.x) + (b.y - a.y) * (c.y - b.y) ≤ 0 := g2
    exact_mod_cast this
  have hτ0 : 0 ≤ τ := by
    by_contra hneg
    rw [not_le] at hneg
    have e : ((b.x : ℚ) - a.x) * (c.x - b.x) + (b.y - a.y) * (c.y - b.y) =
        -τ * (((b.x : ℚ) - a.x) * (b.x - a.x) + ((b.y : ℚ) - a.y) * (b.y - a.y)) := by rw [hx, hy]; ring
    rw [e] at g2'
    have := mul_pos (neg_pos.2 hneg) hL
    linarith
  have hτ1 : τ ≠ 0 := by
    rintro rfl
    apply nbc
    have : c.q = b.q := atParam_zero hτ
    exact (Pt.q_inj this).symm
  have hpos : 0 < τ := lt_of_le_of_ne hτ0 (Ne.symm hτ1)
  rcases lt_trichotomy τ 1 with h | h | h
  · have hon : onSeg c.q a b := onSeg_symm ⟨τ, hτ0, h.le, hτ⟩
    have hin : inSeg c.q b a := ⟨τ, hpos, h, hτ⟩
    have := hin.ne nab.symm
    rcases (hm c.q hon (onSeg_right b c)).1 with h | h
    · exact this.2 h
    · exact this.1 h
  · subst h
    have hca : c = a := Pt.q_inj (atParam_one hτ)
    subst hca
    -- the same ends: the middle
    have hmid : onSeg ⟨((c.x:ℚ) + b.x) / 2, ((c.y:ℚ) + b.y) / 2⟩ c b := ⟨1/2, by norm_num, by norm_num, by simp; ring, by simp; ring⟩
    have hmi : inSeg ⟨((c.x:ℚ) + b.x) / 2, ((c.y:ℚ) + b.y) / 2⟩ c b := ⟨1/2, by norm_num, by norm_num, by simp; ring, by simp; ring⟩
    have := hmi.ne nab
    rcases (hm _ hmid (onSeg_symm hmid)).1 with h | h
    · exact this.1 h
    · exact this.2 h
  · have hin : inSeg a.q b c := by
      refine ⟨1 / τ, by positivity, by rw [div_lt_one hpos]; exact h, ?_, ?_⟩
      · rw [hx]; simp only [Pt.q]; field_simp; ring
      · rw [hy]; simp only [Pt.q]; field_simp; ring
    have := hin.ne nbc
    rcases (hm a.q (onSeg_left a b) hin.on).2 with h | h
    · exact this.1 h
    · exact this.2 h

theorem mem_triples : ∀ {L : List Pt} {t : Pt × Pt × Pt}, t ∈ triples L → ∃ i : Nat, L[i]? = some t.1 ∧
    L[i + 1]? = some t.2.1 ∧ L[i + 2]? = some t.2.2
  | [], t, h => by simp [triples] at h
  | [_], t, h => by simp [triples] at h
  | [_, _], t, h => by simp [triples] at h
  | a :: b :: c :: l, t, h => by
    rw [triples] at h
    rcases List.mem_cons.1 h with rfl | h
    · exact ⟨0, rfl, rfl, rfl⟩
    · obtain ⟨i, h1, h2, h3⟩ := mem_triples h
      exact ⟨i + 1, by simpa using h1, by simpa using h2, by simpa using h3⟩

/-- Consecutive edges of a polygon, by position. -/
theorem cyclicTriples_edges {pts : List Pt} {t : Pt × Pt × Pt} (ht : t ∈ cyclicTriples pts) :
    ∃ i j : Nat, i ≠ j ∧ (polyEdges pts)[i]? = some (t.1, t.2.1) ∧ (polyEdges pts)[j]? = some (t.2.1, t.2.2) := by
  obtain ⟨i, h1, h2, h3⟩ := mem_triples ht
  rcases pts with _ | ⟨p, _ | ⟨p1, rest⟩⟩
  · simp at h1
  · simp at h3
  have hlen := (List.getElem?_eq_some_iff.1 h3).1
  have hE : ∀ (k : Nat) (x y : Pt), (p :: p1 :: rest)[k]? = some x → ((p1 :: rest) ++ [p])[k]? = some y →
      (polyEdges (p :: p1 :: rest))[k]? = some (x, y) := by
    intro k x y hx hy
    unfold polyEdges
    rw [List.getElem?_zip_eq_some]
    exact ⟨hx, hy⟩
  simp only [List.take_succ_cons, List.take_zero, List.length_append, List.length_cons, List.length_nil] at hlen
  have e : (p :: p1 :: rest) ++ List.take 2 (p :: p1 :: rest) = p :: ((p1 :: rest) ++ [p]) ++ [p1] := by simp
  rw [e] at h1 h2 h3
  by_cases hi : i < rest.length + 1
  · refine ⟨i, i + 1, by omega, hE i _ _ ?_ ?_, hE (i + 1) _ _ ?_ ?_⟩
    · rw [List.getElem?_append_left (by simp; omega)] at h1
      rw [← List.cons_append, List.getElem?_append_left (by simp; omega)] at h1
      exact h1
    · rw [List.getElem?_append_left (by simp; omega), List.getElem?_cons_succ] at h2
      exact h2
    · rw [List.getElem?_append_left (by simp; omega)] at h2
      rw [← List.cons_append, List.getElem?_append_left (by simp; omega)] at h2
      exact h2
    · rw [List.getElem?_append_left (by simp; omega), List.getElem?_cons_succ] at h3
      exact h3
  · obtain rfl : i = rest.length + 1 := by omega
    refine ⟨rest.length + 1, 0, by omega, hE _ _ _ ?_ ?_, hE 0 _ _ ?_ ?_⟩
    · rw [List.getElem?_append_left (by simp), ← List.cons_append, List.getElem?_append_left (by simp)] at h1
      exact h1
    · rw [List.getElem?_append_left (by simp), List.getElem?_cons_succ] at h2
      exact h2
    · rw [List.getElem?_append_left (by simp), List.getElem?_cons_succ, List.getElem?_append_right (by simp)] at h2
      simpa using h2
    · rw [List.getElem?_append_right (by simp)] at h3
      simpa using h3

theorem trail_noSpikes {links : List Link} (hp : Planar (links.map Link.seg)) {trail : List Nat} {pts : List Pt}
    (hd : trail.Nodup) (h : ClosedTrail links trail pts) : NoSpikes pts := by
  rintro ⟨a, b, c⟩ ht
  obtain ⟨i, j, hij, h1, h2⟩ := cyclicTriples_edges ht
  obtain ⟨hlen, hget⟩ := List.forall₂_iff_get.1 h
  obtain ⟨i1, i2⟩ := List.getElem?_eq_some_iff.1 h1
  obtain ⟨j1, j2⟩ := List.getElem?_eq_some_iff.1 h2
  obtain ⟨l, hl, hle⟩ := hget i (by omega) i1
  obtain ⟨l', hl', hle'⟩ := hget j (by omega) j1
  simp only [List.get_eq_getElem] at hl hl' hle hle'
  rw [i2] at hle
  rw [j2] at hle'
  have hk : trail[i]'(by omega) ≠ trail[j]'(by omega) := fun e => hij ((List.Nodup.getElem_inj_iff hd).1 e)
  have hs : ∀ (k : Nat) (l : Link), links[k]? = some l → (links.map Link.seg)[k]? = some l.seg := by
    intro k l hl; rw [List.getElem?_map, hl]; rfl
  have m1 := hs _ _ hl
  have m2 := hs _ _ hl'
  refine hp.goesOn (List.mem_of_getElem? m1) (List.mem_of_getElem? m2) ?_ hle hle'
  intro e
  rw [e] at m1
  obtain ⟨u1, u2⟩ := List.getElem?_eq_some_iff.1 m1
  obtain ⟨v1, v2⟩ := List.getElem?_eq_some_iff.1 m2
  have hsort := hp.sorted
  rcases Nat.lt_or_ge (trail[i]'(by omega)) (trail[j]'(by omega)) with h | h
  · have := List.pairwise_iff_getElem.1 hsort _ _ u1 v1 h
    rw [u2, v2] at this
    exact Seg.lt_irrefl _ this
  · have := List.pairwise_iff_getElem.1 hsort _ _ v1 u1 (by omega)
    rw [u2, v2] at this
    exact Seg.lt_irrefl _ this

/-- Contract of `clean` (`simplify_contour` / `dedup_contour`, external): no spikes appear. -/
def CleanTurns (clean : List Pt → List Pt × Bool) : Prop := ∀ c, NoSpikes c → NoSpikes (clean c).1

/-- What is true of the contours of a result: no rounding when they are processed again, no spikes, all points wind by 0
or by the same number, and the winding changes across every edge. -/
structure Tidy (P : List (List Pt)) : Prop where
  range : ∀ c ∈ P, ∀ p ∈ c, InRange p
  notClosed : ∀ c ∈ P, NotClosedExplicitly c
  whole : WholeCrossings (P.flatMap polyEdges)
  spikes : ∀ c ∈ P, NoSpikes c
  value : ∃ t : Int, (t = 1 ∨ t = -1) ∧ ∀ q, polysWind P q = 0 ∨ polysWind P q = t
  changes : ∀ M : List (Pt × Pt), (∀ e ∈ M, e.1 ≠ e.2) →
    (∀ q q', (∀ p, OnAny M p → ¬ p.Between q q') → polysWind P q = polysWind P q') →
    ∀ q, OnAny (P.flatMap polyEdges) q → OnAny M q

section
variable {rule : FillRule} {r : OverlayRule} {segs : List (Seg CountBool)}

/-- Beside an inner point of a kept edge the rule gives different answers. -/
theorem EdgesOk.kept_sides (he : EdgesOk segs) {s : Seg CountBool} (hs : s ∈ segs) {q : QPt} (hq : inSeg q s.a s.b) :
    ∃ ε : ℚ, 0 < ε ∧ ∀ δ, 0 < δ → δ < ε →
      keptB rule r segs s = xor
        (r.op (rule.inside (segsWind CountBool.subj segs (rightOf s.a s.b q δ)))
          (rule.inside (segsWind CountBool.clip segs (rightOf s.a s.b q δ))))
        (r.op (rule.inside (segsWind CountBool.subj segs (leftOf s.a s.b q δ)))
          (rule.inside (segsWind CountBool.clip segs (leftOf s.a s.b q δ)))) := by
  obtain ⟨ε1, a0, a1⟩ := he.planar.near he.subj hs hq
  obtain ⟨ε2, b0, b1⟩ := he.planar.near he.clip hs hq
  refine ⟨min ε1 ε2, lt_min a0 b0, fun δ d0 d1 => ?_⟩
  obtain ⟨d1, d2⟩ := lt_min_iff.1 d1
  obtain ⟨u1, u2⟩ := a1 δ d0 d1
  obtain ⟨v1, v2⟩ := b1 δ d0 d2
  rw [u1, u2, v1, v2]
  rfl

/-- The edges of the returned contours run along the kept edges. -/
theorem RunOk.along_kept {g : Graph} {V : List Pt}
    {vis : List Bool} (h : RunOk rule r segs g V vis) (cw : Bool) {x : Externals} {minArea : Nat}
    (hcl : CleanEdges x.clean)
    {shapes : List (List (List Pt))} (he : IOverlay.extract x g r cw minArea vis = some shapes) :
    ∀ c ∈ shapes.flatten, ∀ e ∈ polyEdges c, Along (ends (segs.filter fun s => keptB rule r segs s)) e.1 e.2 := by
  obtain ⟨ws, h1, h2, -, h4, -⟩ := h.returned cw he
  obtain ⟨inc, F, e1, e2, e3⟩ := h.filter
  intro c hc e he'
  obtain ⟨s, hs, hcs⟩ := List.mem_flatten.1 hc
  obtain ⟨w, hw, rfl⟩ := h1.mem s hs c hcs
  obtain ⟨k1, k2⟩ := hcl _ (trail_steps h (h2 w hw).1) e he'
  refine k2.comp ?_
  intro d hd
  obtain ⟨hlen, hget⟩ := List.forall₂_iff_get.1 (h2 w hw).1
  obtain ⟨n, hn, rfl⟩ := List.mem_iff_getElem.1 hd
  obtain ⟨l, hl, hle⟩ := hget n (by omega) hn
  have hvis := h4 _ (List.mem_flatMap.2 ⟨w, hw, List.getElem_mem (by omega : n < w.trail.length)⟩)
  rw [List.get_eq_getElem] at hl
  have hF : F l.fill = false := by
    unfold isVisited at hvis
    rw [e2, List.getD_eq_getElem?_getD, List.getElem?_map, hl] at hvis
    simpa using hvis
  have hm : (l.a, l.b, l.fill) ∈ g.links.map (fun l => (l.a, l.b, l.fill)) :=
    List.mem_map_of_mem (f := fun l : Link => (l.a, l.b, l.fill)) (List.mem_of_getElem? hl)
  rw [e1] at hm
  obtain ⟨s, hs, hse⟩ := List.mem_map.1 hm
  simp only [Prod.mk.injEq] at hse
  obtain ⟨s1, s2⟩ := List.mem_filter.1 hs
  have hin : (l.a, l.b) ∈ ends (segs.filter fun s => keptB rule r segs s) := by
    refine List.mem_map.2 ⟨s, List.mem_filter.2 ⟨s1, ?_⟩, by rw [hse.1, hse.2.1]⟩
    rw [← e3 s s1, s2, hse.2.2, hF]; rfl
  rw [List.get_eq_getElem] at hle
  rcases hle with hle | hle
  · rw [hle]; exact Along.edge hin
  · rw [hle]; exact (Along.edge hin).symm

end

/-- The contours of a result are tidy. -/
theorem IsResult.tidy {k : Config} {x : Externals} (ha : Assumed k x) (hc : CleanAssumed x) (ht : CleanTurns x.clean)
    {r : OverlayRule} {rule : FillRule} {cw : Bool} {subj clip : List (List Pt)} (hf : FragFor k subj clip)
    (hin : ∀ c ∈ subj ++ clip, ∀ p ∈ c, InRange p) {shapes : List (List (List Pt))}
    (h : IsResult k x r rule cw 0 subj clip shapes) : Tidy shapes.flatten := by
  obtain ⟨c1, c2, c3⟩ := C57_result ha hf hc hin h
  obtain ⟨segs, g, V, vis, h1, h2, h3⟩ := h.run ha hf
  obtain ⟨segs', h1', h4⟩ := h.winding ha hf
  obtain rfl : segs = segs' := Option.some.inj (h1.symm.trans h1')
  refine ⟨c1, c2, c3, ?_, ⟨outerTurn cw, by cases cw <;> decide, fun q => ?_⟩, ?_⟩
  · intro c hcm
    obtain ⟨ws, w1, w2, w3, -, -⟩ := h2.returned cw h3
    obtain ⟨s, hs, hcs⟩ := List.mem_flatten.1 hcm
    obtain ⟨w, hw, rfl⟩ := w1.mem s hs c hcs
    exact ht _ (trail_noSpikes h2.planar (List.nodup_flatMap.1 w3 |>.1 w hw) (w2 w hw).1)
  · rw [h4]
    split
    · right; ring
    · left; ring
  · intro M hM hconst q hq
    obtain ⟨e, he, hqe⟩ := hq
    obtain ⟨c, hcm, hec⟩ := List.mem_flatMap.1 he
    obtain ⟨f, hf, hqf⟩ := (h2.along_kept cw hc.edges h3 c hcm e hec).on hqe
    obtain ⟨s, hs, rfl⟩ := List.mem_map.1 hf
    obtain ⟨s1, s2⟩ := List.mem_filter.1 hs
    refine cover (a := s.a) (b := s.b) (f := polysWind shapes.flatten) (ok := fun _ => True) hM ?_
      (fun q q' _ _ h => hconst q q' h) q hqf
    intro p hp
    obtain ⟨ε, e0, e1⟩ := h2.edges.kept_sides (rule := rule) (r := r) s1 hp
    refine ⟨ε, e0, fun δ d0 d1 => ⟨?_, trivial, trivial⟩⟩
    have := e1 δ d0 d1
    rw [s2] at this
    rw [h4, h4]
    generalize r.op (rule.inside (segsWind CountBool.subj segs (rightOf s.a s.b p δ)))
      (rule.inside (segsWind CountBool.clip segs (rightOf s.a s.b p δ))) = u at this
    generalize r.op (rule.inside (segsWind CountBool.subj segs (leftOf s.a s.b p δ)))
      (rule.inside (segsWind CountBool.clip segs (leftOf s.a s.b p δ))) = v at this
    revert this
    cases u <;> cases v <;> cases cw <;> decide

/-! ### the vertices of the edges found -/

/-- A vertex is an end of an edge, or two edges on different lines meet there. -/
def FoundAt {C : Type} (l : List (Seg C)) (v : Pt) : Prop :=
  (∃ s ∈ l, v = s.a ∨ v = s.b) ∨
  ∃ s ∈ l, ∃ t ∈ l, inSeg v.q s.a s.b ∧ onSeg v.q t.a t.b ∧ ¬ AllOnLine s.x t.x

theorem applyMarks_vertices {C : Type} [WindingCount C] {l : List (Seg C)} (hl : ∀ s ∈ l, s.a < s.b) {radius : Int}
    (hr : 0 ≤ radius) (hc : Covers (listPairs l) l) (hx : (roundMarks radius (listPairs l)).2 = false) :
    ∀ s ∈ applyMarks (roundMarks radius (listPairs l)).1 l, FoundAt l s.a ∧ FoundAt l s.b := by
  intro s hs
  unfold applyMarks at hs
  obtain ⟨e, h1, h2, h3⟩ := mergeIfNeeded_edges _ s hs
  rw [(sortSegs_perm _).mem_iff, mem_splitAll] at h1
  obtain ⟨i, t, ht, hm⟩ := h1
  rw [Nat.zero_add] at hm
  obtain ⟨-, -, a1, a2, -⟩ := splitSeg_piece hl hc hr hx ht hm
  have main : ∀ v, onChain (roundMarks radius (listPairs l)).1 i t v → FoundAt l v := by
    intro v hv
    rcases hv with h | h | h
    · exact Or.inl ⟨t, List.mem_of_getElem? ht, Or.inl h⟩
    · exact Or.inl ⟨t, List.mem_of_getElem? ht, Or.inr h⟩
    · obtain ⟨s', k, u, k1, k2, -, k4, k5, k6⟩ := roundMarks_exact hl hc hr hx h
      dsimp only at k1 k4 k5 k6
      by_cases hal : AllOnLine s'.x u.x
      · exact Or.inl ⟨u, List.mem_of_getElem? k2, k6 hal⟩
      · exact Or.inr ⟨s', List.mem_of_getElem? k1, u, List.mem_of_getElem? k2, k4, k5, hal⟩
  rw [h2, h3]
  exact ⟨main _ a1, main _ a2⟩

theorem splitSegments_vertices {C : Type} [WindingCount C] (sr : SnapRadius)
    (tree : TreeOracle C) (fuel : Nat) (segs r : List (Seg C)) (hl : ∀ s ∈ segs, s.a < s.b)
    (hx : (roundMarks sr.radius (listPairs (mergeIfNeeded (sortSegs segs)))).2 = false)
    (he : splitSegments .list sr tree fuel segs = some r) :
    ∀ s ∈ r, FoundAt segs s.a ∧ FoundAt segs s.b := by
  have h0 : ∀ s ∈ mergeIfNeeded (sortSegs segs), ∃ t ∈ segs, t.a = s.a ∧ t.b = s.b := by
    intro s hs
    obtain ⟨e, h1, h2, h3⟩ := mergeIfNeeded_edges _ s hs
    rw [(sortSegs_perm _).mem_iff] at h1
    exact ⟨e, h1, h2.symm, h3.symm⟩
  have up : ∀ v, FoundAt (mergeIfNeeded (sortSegs segs)) v → FoundAt segs v := by
    rintro v (⟨s, hs, hv⟩ | ⟨s, hs, t, ht, k1, k2, k3⟩)
    · obtain ⟨t, t1, t2, t3⟩ := h0 s hs
      exact Or.inl ⟨t, t1, by rw [t2, t3]; exact hv⟩
    · obtain ⟨s', s1, s2, s3⟩ := h0 s hs
      obtain ⟨t', t1, t2, t3⟩ := h0 t ht
      refine Or.inr ⟨s', s1, t', t1, by rw [s2, s3]; exact k1, by rw [t2, t3]; exact k2, ?_⟩
      unfold AllOnLine Seg.x at k3 ⊢
      rw [s2, s3, t2, t3]
      exact k3
  have h1 : ∀ s ∈ mergeIfNeeded (sortSegs segs), FoundAt segs s.a ∧ FoundAt segs s.b := fun s hs =>
    ⟨up _ (Or.inl ⟨s, hs, Or.inl rfl⟩), up _ (Or.inl ⟨s, hs, Or.inr rfl⟩)⟩
  unfold splitSegments at he
  simp only [isListSplit, if_true] at he
  cases fuel with
  | zero => simp [splitLoop] at he
  | succ n =>
    rw [splitLoop] at he
    split at he
    · simp only [Option.some.injEq] at he; subst he; exact h1
    · simp only [hx] at he
      split at he
      · simp only [Option.some.injEq] at he; subst he; exact h1
      · simp only [Bool.false_eq_true, if_false, Option.some.injEq] at he
        subst he
        intro s hs
        obtain ⟨k1, k2⟩ := applyMarks_vertices (start_lt hl) sr.radius_nonneg
          (listPairs_covers _ (sorted_of_strict (start_sorted segs)) (start_lt hl)) hx s hs
        exact ⟨up _ k1, up _ k2⟩

theorem withAB_vertex {C : Type} (p q : Pt) (d i : C) (v : Pt) :
    (v = (withAB p q d i).a ∨ v = (withAB p q d i).b) ↔ (v = p ∨ v = q) := by
  unfold withAB
  split
  · rfl
  · exact or_comm

theorem polyEdges_mem {c : List Pt} {e : Pt × Pt} (h : e ∈ polyEdges c) : e.1 ∈ c ∧ e.2 ∈ c := by
  rcases c with _ | ⟨p, ps⟩
  · simp [polyEdges] at h
  · have := List.of_mem_zip (show (e.1, e.2) ∈ _ from h)
    refine ⟨this.1, ?_⟩
    rcases List.mem_append.1 this.2 with h | h
    · exact List.mem_cons_of_mem _ h
    · rw [List.mem_singleton.1 h]; exact List.mem_cons_self

section
variable {P : List (List Pt)} (hP : Tidy P) {k : Config} {x : Externals} (ha : Assumed k x) (hf : FragFor k P [])
  {segs : List (Seg CountBool)} (h : nodedEdges k.st k.sr k.tree k.fuel (overlaySegments P []) = some segs)
include hP ha hf h

theorem Tidy.wind (q : QPt) : segsWind CountBool.subj segs q = polysWind P q ∧ segsWind CountBool.clip segs q = 0 := by
  have := noded_whole ha.tree hf hP.notClosed (by simp) (by simpa using hP.range) (by simpa using hP.whole) h q
  exact ⟨this.1, by rw [this.2]; rfl⟩

/-- The points of the edges are points of edges of the contours. -/
theorem Tidy.on_given {q : QPt} (hq : OnAny (ends segs) q) : OnAny (P.flatMap polyEdges) q := by
  obtain ⟨s, hs, hqs⟩ := onAny_ends.1 hq
  have := noded_along ha.tree hf hP.notClosed (by simp) (by simpa using hP.range) (by simpa using hP.whole) h s hs
  rw [List.append_nil] at this
  exact this.on hqs

theorem Tidy.found : ∀ s ∈ segs, FoundAt (overlaySegments P [] : List (Seg CountBool)) s.a ∧
    FoundAt (overlaySegments P [] : List (Seg CountBool)) s.b := by
  have hx := overlay_not_round hP.notClosed (clip := []) (by simp) (by simpa using hP.range)
    (by simpa using hP.whole) k.sr.radius
  unfold nodedEdges at h
  split at h
  · rw [← Option.some.inj h]; simp
  · obtain ⟨n, hn⟩ := (C38_strategies_agree_partial k.st .list k.sr k.tree ha.tree P [] hf (FragOk.list k.sr _) segs).1 ⟨k.fuel, h⟩
    exact splitSegments_vertices k.sr k.tree n _ segs (overlaySegments_lt P []) hx hn

variable (he : EdgesOk segs)
include he

theorem Tidy.clip_zero : ∀ s ∈ segs, s.c.clip = 0 := by
  intro s hs
  have hm : inSeg ⟨((s.a.x:ℚ) + s.b.x) / 2, ((s.a.y:ℚ) + s.b.y) / 2⟩ s.a s.b :=
    ⟨1/2, by norm_num, by norm_num, by simp; ring, by simp; ring⟩
  obtain ⟨ε, e0, e1⟩ := he.planar.near he.clip hs hm
  obtain ⟨k1, k2⟩ := e1 (ε / 2) (by linarith) (by linarith)
  rw [(hP.wind ha hf h _).2] at k1 k2
  rw [← k1, zero_add] at k2
  exact k2.symm

/-- The edges with a count are the kept ones. -/
theorem Tidy.kept {rule : FillRule} (hr : rule = .evenOdd ∨ rule = .nonZero) :
    ∀ s ∈ segs, keptB rule .subject segs s = decide (s.c.subj ≠ 0) := by
  intro s hs
  have hm : inSeg ⟨((s.a.x:ℚ) + s.b.x) / 2, ((s.a.y:ℚ) + s.b.y) / 2⟩ s.a s.b :=
    ⟨1/2, by norm_num, by norm_num, by simp; ring, by simp; ring⟩
  obtain ⟨ε, e0, e1⟩ := he.planar.near he.subj hs hm
  obtain ⟨ε', e0', e1'⟩ := he.kept_sides (rule := rule) (r := .subject) hs hm
  have hmin : 0 < min ε ε' := lt_min e0 e0'
  have d1 : min ε ε' / 2 < ε := by have := min_le_left ε ε'; linarith
  have d2 : min ε ε' / 2 < ε' := by have := min_le_right ε ε'; linarith
  obtain ⟨k1, k2⟩ := e1 (min ε ε' / 2) (by linarith) d1
  rw [e1' (min ε ε' / 2) (by linarith) d2]
  obtain ⟨t, ht, hv⟩ := hP.value
  have v1 := hv (rightOf s.a s.b ⟨((s.a.x:ℚ) + s.b.x) / 2, ((s.a.y:ℚ) + s.b.y) / 2⟩ (min ε ε' / 2))
  have v2 := hv (leftOf s.a s.b ⟨((s.a.x:ℚ) + s.b.x) / 2, ((s.a.y:ℚ) + s.b.y) / 2⟩ (min ε ε' / 2))
  rw [← (hP.wind ha hf h _).1] at v1 v2
  generalize segsWind CountBool.subj segs (rightOf s.a s.b _ (min ε ε' / 2)) = u at *
  generalize segsWind CountBool.subj segs (leftOf s.a s.b _ (min ε ε' / 2)) = v at *
  have e : s.c.subj = v - u := by rw [k2, k1]; show _ = _ + s.c.subj - _; ring
  rw [e]
  have e2 : ∀ (a b : Int), OverlayRule.subject.op (rule.inside a) (rule.inside b) = rule.inside a := fun _ _ => rfl
  rw [e2, e2]
  rcases ht with rfl | rfl <;> rcases hr with rfl | rfl <;> rcases v1 with rfl | rfl <;> rcases v2 with rfl | rfl <;> decide

/-- The edges with a count. -/
def counted (segs : List (Seg CountBool)) : List (Seg CountBool) := segs.filter fun s => decide (s.c.subj ≠ 0)

omit hP ha hf h he in
theorem segsWind_counted (segs : List (Seg CountBool)) (q : QPt) :
    segsWind CountBool.subj (counted segs) q = segsWind CountBool.subj segs q := by
  unfold counted
  induction segs with
  | nil => rfl
  | cons s l ih =>
    rw [List.filter_cons]
    by_cases hs : s.c.subj = 0
    · rw [if_neg (by simpa using hs), ih, segsWind_cons]
      show _ = s.c.subj * _ + _
      rw [hs]; ring
    · rw [if_pos (by simpa using hs), segsWind_cons, segsWind_cons, ih]

omit hP ha hf h in
theorem EdgesOk.counted_closed : Closed CountBool.subj (counted segs) := by
  intro f
  rw [← he.subj f]
  have : ∀ l : List (Seg CountBool), segSum CountBool.subj (fun a b => f a - f b) (counted l) =
      segSum CountBool.subj (fun a b => f a - f b) l := by
    intro l
    unfold counted
    induction l with
    | nil => rfl
    | cons s l ih =>
      rw [List.filter_cons]
      by_cases hs : s.c.subj = 0
      · rw [if_neg (by simpa using hs), ih, segSum_cons]
        show _ = s.c.subj * _ + _
        rw [hs]; ring
      · rw [if_pos (by simpa using hs), segSum_cons, segSum_cons, ih]
  exact this segs

omit hP ha hf h in
theorem EdgesOk.counted_planar : Planar (counted segs) := by
  have hs : (counted segs).Sublist segs := List.filter_sublist
  exact ⟨fun s h => he.planar.lt s (hs.mem h), he.planar.sorted.sublist hs, he.planar.noded.sublist hs⟩

/-- The points of the edges of the contours are points of the counted edges. -/
theorem Tidy.on_counted {q : QPt} (hq : OnAny (P.flatMap polyEdges) q) : OnAny (ends (counted segs)) q := by
  refine hP.changes _ ?_ ?_ q hq
  · intro e he'
    obtain ⟨s, hs, rfl⟩ := List.mem_map.1 he'
    exact Pt.ne_of_lt (he.counted_planar.lt s hs)
  · intro q q' hb
    rw [← (hP.wind ha hf h q).1, ← (hP.wind ha hf h q').1, ← segsWind_counted segs q, ← segsWind_counted segs q']
    exact segsWind_const he.counted_closed hb

/-- The boundary turns at every vertex. -/
theorem Tidy.turning : Turning (counted segs) := by
  intro s hs v hv
  have hs' : s ∈ segs := (List.mem_filter.1 hs).1
  have hfound : FoundAt (overlaySegments P [] : List (Seg CountBool)) v := by
    obtain ⟨k1, k2⟩ := hP.found ha hf h s hs'
    rcases hv with rfl | rfl
    exacts [k1, k2]
  have hal := overlaySegments_along (C := CountBool) hP.notClosed (clip := []) (by simp)
  have hon : ∀ t ∈ (overlaySegments P [] : List (Seg CountBool)), ∀ q, onSeg q t.a t.b → OnAny (ends (counted segs)) q := by
    intro t ht q hq
    refine hP.on_counted ha hf h he ?_
    have := (hal t ht).on hq
    rwa [List.append_nil] at this
  rcases hfound with ⟨t, ht, hvt⟩ | ⟨t, ht, u, hu, k1, k2, k3⟩
  · unfold overlaySegments at ht
    rw [List.flatMap_nil, List.append_nil] at ht
    obtain ⟨c, hc, htc⟩ := List.mem_flatMap.1 ht
    unfold appendContour at htc
    rw [appendPath_corners _ _ _ (hP.spikes c hc)] at htc
    obtain ⟨e, he', rfl⟩ := List.mem_map.1 htc
    rw [withAB_vertex] at hvt
    have hvc : v ∈ corners c := by
      obtain ⟨m1, m2⟩ := polyEdges_mem he'
      rcases hvt with rfl | rfl
      exacts [m1, m2]
    obtain ⟨⟨a, b, d⟩, ht', rfl⟩ := List.mem_map.1 hvc
    obtain ⟨t1, t2⟩ := List.mem_filter.1 ht'
    obtain ⟨i, j, -, e1, e2⟩ := cyclicTriples_edges t1
    have m1 := List.mem_of_getElem? e1
    have m2 := List.mem_of_getElem? e2
    dsimp only at m1 m2 ⊢
    refine ⟨a, d, ?_, ?_, ?_⟩
    · unfold isCorner at t2
      simp only [decide_eq_true_eq] at t2
      intro e
      apply t2
      unfold area2 at e ⊢
      linear_combination -e
    · intro q hq
      exact hP.on_counted ha hf h he ⟨_, List.mem_flatMap.2 ⟨c, hc, m1⟩, onSeg_symm hq⟩
    · intro q hq
      exact hP.on_counted ha hf h he ⟨_, List.mem_flatMap.2 ⟨c, hc, m2⟩, hq⟩
  · -- `v` inside `t`, on `u`; one of the ends of `u` is not on the line of `t`
    have htlt := overlaySegments_lt (C := CountBool) P [] t ht
    have hult := overlaySegments_lt (C := CountBool) P [] u hu
    have tne := Pt.ne_of_lt htlt
    have hvb : v ≠ t.b := fun e => (k1.ne tne).2 (by rw [e])
    have hvl : area2 t.a t.b v = 0 := by
      obtain ⟨τ, -, -, hτ⟩ := k1
      have := qarea_self hτ
      rw [qarea_q] at this
      exact_mod_cast this
    have key : ∀ w : Pt, area2 t.a t.b w ≠ 0 → area2 v t.b w ≠ 0 := by
      intro w hw e
      apply hw
      exact area2_on_line hvb (by unfold area2 at hvl ⊢; linear_combination -hvl) (by unfold area2; ring) e
    have hw : ∃ w, (w = u.a ∨ w = u.b) ∧ area2 t.a t.b w ≠ 0 := by
      by_contra hn
      have n1 : area2 t.a t.b u.a = 0 := by
        by_contra h; exact hn ⟨_, Or.inl rfl, h⟩
      have n2 : area2 t.a t.b u.b = 0 := by
        by_contra h; exact hn ⟨_, Or.inr rfl, h⟩
      apply k3
      refine ⟨n1, n2, ?_, ?_⟩
      · exact area2_on_line tne n1 n2 (area2_self_left _ _)
      · exact area2_on_line tne n1 n2 (area2_self_right _ _)
    obtain ⟨w, hw1, hw2⟩ := hw
    refine ⟨t.b, w, key w hw2, ?_, ?_⟩
    · intro q hq
      exact hon t ht q (onSeg_sub k1.on (onSeg_right _ _) hq)
    · intro q hq
      refine hon u hu q (onSeg_sub k2 ?_ hq)
      rcases hw1 with rfl | rfl
      exacts [onSeg_left _ _, onSeg_right _ _]

end

end IOverlay
