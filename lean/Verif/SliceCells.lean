/-
The cells a slice is made of: a point inside has the surroundings of a contour of its shape. C67.
-/
import Verif.Props.SliceProper

namespace IOverlay

section
variable {C : Type} {segs : List (Seg C)} (hp : Planar segs)
include hp

/-- The winding number of a point is that of the upper side of the first edge below it. -/
theorem Planar.point_below {R : Seg C → Prop} {ψ : C → Int} (hψ : ∀ f ∈ segs, ¬ R f → ψ f.c = 0) {q : QPt}
    (h0 : segsWind ψ segs q ≠ 0) :
    ∃ e ∈ segs, R e ∧ ∀ φ : C → Int, Closed φ segs → (∀ f ∈ segs, ¬ R f → φ f.c = 0) →
      segsWind φ segs q = botW φ segs e + φ e.c := by
  classical
  have f1 : (⌊q.x⌋:ℚ) ≤ q.x := Int.floor_le _
  have f2 : q.x ≤ ⌊q.x⌋ + 1 := (Int.lt_floor_add_one _).le
  have hw : ∀ φ : C → Int, segsWind φ segs q = wsum φ (fun s => ind (s.spans ⌊q.x⌋ ∧ ht s q.x < q.y)) segs := by
    intro φ
    rw [segsWind_eq_wsum φ hp.lt]
    refine wsum_congr φ fun s _ => ind_congr ?_
    rw [← and_assoc, spans_floor]
  generalize hL : (segs.filter fun f => decide (R f ∧ f.spans ⌊q.x⌋ ∧ ht f q.x < q.y)) = L
  have hm : ∀ f, f ∈ L ↔ f ∈ segs ∧ R f ∧ f.spans ⌊q.x⌋ ∧ ht f q.x < q.y := by
    intro f; rw [← hL, List.mem_filter, decide_eq_true_eq]
  have hne : L ≠ [] := by
    intro hn
    apply h0
    rw [hw]
    unfold wsum
    refine List.sum_eq_zero ?_
    intro z hz
    obtain ⟨f, hf, rfl⟩ := List.mem_map.1 hz
    beta_reduce
    by_cases hr : R f
    · rw [ind_false, mul_zero]
      rintro ⟨k1, k2⟩
      have := (hm f).2 ⟨hf, hr, k1, k2⟩
      rw [hn] at this
      simp at this
    · rw [hψ f hf hr, zero_mul]
  obtain ⟨e, he, hmax⟩ := exists_max L hne fun f => ht f (mid ⌊q.x⌋)
  obtain ⟨e1, e2, e3, e4⟩ := (hm e).1 he
  refine ⟨e, e1, e2, fun φ hφ hR => ?_⟩
  rw [hw, hp.botW_eq_lowSum φ e1 e3.x, ← hp.lowSum_const hφ e1 _ e3, ← wsum_single φ hp.nodup e1]
  unfold lowSum
  rw [← wsum_add]
  unfold wsum
  congr 1
  refine List.map_congr_left fun f hf => ?_
  beta_reduce
  by_cases hr : R f
  · congr 1
    by_cases sf : f.spans ⌊q.x⌋
    · by_cases fe : f = e
      · subst fe
        rw [ind_true ⟨sf, e4⟩, ind_false (fun h => lt_irrefl _ h.2), ind_true rfl]; rfl
      · rw [ind_false fe, add_zero]
        refine ind_congr ⟨fun k => ⟨sf, ?_⟩, fun k => ⟨sf, ?_⟩⟩
        · exact lt_of_le_of_ne (hmax f ((hm f).2 ⟨hf, hr, sf, k.2⟩)) (hp.mid_ne hf e1 fe sf e3)
        · exact lt_of_le_of_lt (hp.of_mid hf e1 sf e3 f1 f2 k.2) e4
    · rw [ind_false (fun k => sf k.1), ind_false (fun k => sf k.1), ind_false]
      · rfl
      · rintro rfl; exact sf e3
  · rw [hR f hf hr, zero_mul, zero_mul]

end

section
variable {cw : Bool} {E : List Edge} {outer holes : List (List Pt)} (hp : Planar E) (hk : Keyed E)
  (h : Cells cw E outer holes)
include hp hk h

/-- A point inside has the winding numbers of the filled side of one of the contours. -/
theorem Cells.point {q : QPt} (hq : polysWind (outer ++ holes) q = outerTurn cw) :
    ∃ Y ∈ outer ++ holes, ∃ f ∈ polyEdges Y, ∀ φ, Closed φ E → segsWind φ E q = hug (!cw) φ E (dartOf f) := by
  have hcl := h.all_closed hp hk
  have hw : segsWind (stepFlow ((outer ++ holes).flatMap polyEdges)) E q = outerTurn cw := by
    rw [stepFlow_wind hp hk (h.all_mem hp), ← polysWind_steps, hq]
  obtain ⟨e, e1, e2, e3⟩ := hp.point_below (R := Carries E) (fun f _ hn => not_carries hn hcl) (q := q)
    (by rw [hw]; exact outerTurn_ne cw)
  have hsum : ∀ φ, Closed φ E → segsWind φ E q = botW φ E e + φ e.c := fun φ hφ =>
    e3 φ hφ fun f _ hn => not_carries hn hφ
  obtain ⟨Y, hY, f, hf, hfw, rfl⟩ := h.used hp hk e1 e2 (by rw [← hsum _ hcl, hw])
  refine ⟨Y, hY, f, hf, fun φ hφ => ?_⟩
  rw [hsum φ hφ]
  unfold hug
  rw [if_pos hfw]

/-- The shape a contour belongs to surrounds its filled side. -/
theorem Cells.own_shape {O : List Pt} {hs : List (List Pt)} (hO : O ∈ outer) (hhs : ∀ H ∈ hs, H ∈ holes ∧ SameSide cw E H O)
    {Y : List Pt} (hY : Y ∈ O :: hs) {q : QPt} {f : Pt × Pt} (hf : f ∈ polyEdges Y)
    (hq : ∀ φ, Closed φ E → segsWind φ E q = hug (!cw) φ E (dartOf f)) : polysWind (O :: hs) q = outerTurn cw := by
  have hO' : O ∈ outer ++ holes := List.mem_append_left _ hO
  have hYO : SameSide cw E Y O := by
    rcases List.mem_cons.1 hY with rfl | hY
    · intro φ hφ e he e' he'
      obtain ⟨m, hm⟩ := (h.loop Y hO').const φ hφ
      rw [hm e he, hm e' he']
    · exact (hhs Y hY).2
  have h1 : polyWind O q = outerTurn cw := by
    obtain ⟨g, hg⟩ := h.edge hO'
    rw [← h.wind hp hk hO', hq _ (h.closed hp hk hO'), hYO _ (h.closed hp hk hO') f hf g hg, h.own_outer hp hk hO hg]
  have h2 : ∀ H ∈ hs, polyWind H q = 0 := by
    intro H hH
    have hH' : H ∈ outer ++ holes := List.mem_append_right _ (hhs H hH).1
    obtain ⟨g, hg⟩ := h.edge hH'
    have := h.same_trans hO' hYO (Cells.same_symm (hhs H hH).2)
    rw [← h.wind hp hk hH', hq _ (h.closed hp hk hH'), this _ (h.closed hp hk hH') f hf g hg,
      h.own_hole hp hk (hhs H hH).1 hg]
  unfold polysWind
  rw [List.map_cons, List.sum_cons, h1, List.sum_eq_zero, add_zero]
  intro z hz
  obtain ⟨H, hH, rfl⟩ := List.mem_map.1 hz
  exact h2 H hH

end

/-- Contours with equal winding numbers around two points. -/
theorem polysWind_congr {l : List (List Pt)} {q q' : QPt} (h : ∀ c ∈ l, polyWind c q = polyWind c q') :
    polysWind l q = polysWind l q' := by
  unfold polysWind
  rw [List.map_congr_left h]

end IOverlay
