/-
The edges registered for one outlined path wind around a point, away from the sides, as the path and the parts do together (proofs
for C77).
-/
import Verif.OutlineCover

namespace IOverlay
open Complex

section
variable {toInt : ℂ → Pt} {j : LineJoin} {δ : ℝ} {path : List ℂ}

theorem mem_ringOf {u : ℂ} (h : u ∈ ringOf path) : u ∈ path := by
  unfold ringOf at h
  simp only [List.mem_append] at h
  rcases h with (h | h) | h
  · exact List.mem_of_mem_drop h
  · exact h
  · exact List.mem_of_mem_take h

/-- Every drawn side is one of the sides, in one of the directions. -/
theorem ring_side : ∀ (l : List ℂ), l <:+: ringOf path → ∀ d ∈ ringSides toInt j δ l,
    OutlineSide toInt j δ path d.1 d.2 ∨ OutlineSide toInt j δ path d.2 d.1 := by
  intro l
  induction l with
  | nil => intro _ d hd; simp [ringSides] at hd
  | cons t l ih =>
    intro hl d hd
    have ih := ih ((List.suffix_cons _ _).isInfix.trans hl)
    match l, hd, hl, ih with
    | [], hd, _, _ => simp [ringSides] at hd
    | [_], hd, _, _ => simp [ringSides] at hd
    | [_, _], hd, _, _ => simp [ringSides] at hd
    | u :: v :: w :: l, hd, hl, ih =>
      have h2 : [u, v] <:+: ringOf path := List.IsInfix.trans ⟨[t], w :: l, by simp⟩ hl
      have h3 : [u, v, w] <:+: ringOf path := List.IsInfix.trans ⟨[t], l, by simp⟩ hl
      rw [ringSides, List.mem_append, List.mem_cons] at hd
      rcases hd with (rfl | hd) | hd
      · exact .inl (.along h2)
      · have hd := mem_pairsOf.1 hd
        unfold dirArc at hd
        split at hd
        · split at hd
          · exact .inl (.outer h3 ‹_› hd)
          · refine .inr (.outer h3 ‹_› ?_)
            rw [← List.reverse_infix] at hd
            simpa using hd
        · have := hd.eq_of_length rfl
          simp only [List.cons.injEq, and_true] at this
          rw [this.1, this.2]
          exact .inl (.inner h3 ‹_›)
      · exact ih d hd

theorem norm_outShift (δ : ℝ) (u v : ℂ) : ‖outShift δ u v‖ ≤ |δ| := by
  unfold outShift halfLeft unitTo
  rw [norm_neg, norm_mul, norm_mul, Complex.norm_I, one_mul, norm_div, Complex.norm_real, Complex.norm_real, norm_norm,
    Real.norm_eq_abs]
  have := div_self_le_one ‖v - u‖
  have := abs_nonneg δ
  nlinarith

/-- The sides end within reach of the path. -/
theorem outline_side_reach (hA : RingApart toInt path) {a b : ℂ} (h : OutlineSide toInt j δ path a b) :
    (∃ u ∈ path, ‖a - u‖ ≤ j.reach |δ|) ∧ (∃ u ∈ path, ‖b - u‖ ≤ j.reach |δ|) := by
  have hr : |δ| ≤ j.reach |δ| := join_reach_ge j (abs_nonneg δ)
  have ne : ∀ u v, [u, v] <:+: ringOf path → u ≠ v := fun u v h e => hA u v h (congrArg toInt e)
  have plus : ∀ x u v : ℂ, ‖x + outShift δ u v - x‖ ≤ j.reach |δ| := by
    intro x u v; rw [add_sub_cancel_left]; exact (norm_outShift δ u v).trans hr
  cases h with
  | @along u v h =>
    have hu := mem_ringOf (h.subset (by simp : u ∈ [u, v]))
    have hv := mem_ringOf (h.subset (by simp : v ∈ [u, v]))
    exact ⟨⟨u, hu, plus _ _ _⟩, ⟨v, hv, plus _ _ _⟩⟩
  | @outer u v w a b h ho h' =>
    have hv := mem_ringOf (h.subset (by simp : v ∈ [u, v, w]))
    have n1 := ne u v (List.IsInfix.trans ⟨[], [w], rfl⟩ h)
    have n2 := ne v w (List.IsInfix.trans ⟨[u], [], rfl⟩ h)
    have arc := (cornerArc_around (toInt := toInt) j n1 n2 ho).near
    exact ⟨⟨v, hv, arc a (h'.subset (by simp))⟩, ⟨v, hv, arc b (h'.subset (by simp))⟩⟩
  | @inner u v w h ho =>
    have hv := mem_ringOf (h.subset (by simp : v ∈ [u, v, w]))
    exact ⟨⟨v, hv, plus _ _ _⟩, ⟨v, hv, plus _ _ _⟩⟩

/-- The edges registered for one path are its sides, rounded; away from the sides, they wind around a point as often as the path,
and more often (outwards) or less often (inwards) exactly if a part does. -/
theorem outline_path_wind {g : ℝ} (hg : 0 < g) {c : ℂ} {ein : ℝ} {q : QPt} (hA : RingApart toInt path) (hR : RoomFor δ path)
    (hG : ∀ u ∈ path, ∀ y, ‖y - u‖ ≤ j.reach |δ| → GridOk toInt g c ein y) :
    (∀ e ∈ (realOps toInt j.normalize.ratio).outlineSegments (-δ) (j.normalize.oBuild (-δ)) path,
      ∃ a b, OutlineSide toInt j δ path a b ∧ Joins e (toInt a) (toInt b)) ∧
    ((∀ a b, OutlineSide toInt j δ path a b → ¬ NearLine (Real.sqrt 2 * ein / g) (fromGrid g c q) a b) →
      ∃ C : Int, segsWind CountOff.subj
          ((realOps toInt j.normalize.ratio).outlineSegments (-δ) (j.normalize.oBuild (-δ)) path) q =
        polyWindC path (fromGrid g c q) + sideSign δ * C ∧
        0 ≤ C ∧ (C ≠ 0 ↔ ∃ P, OutlinePart toInt j δ path P ∧ polyWindC P (fromGrid g c q) ≠ 0)) := by
  match path, hA, hR, hG with
  | [], _, _, _ =>
    refine ⟨fun e he => by simp [FloatOps.outlineSegments] at he, fun _ => ⟨0, ?_, le_refl _, fun h => absurd rfl h, ?_⟩⟩
    · simp [FloatOps.outlineSegments, segsWind, polyWindC, cycleEdges]
    · rintro ⟨P, hP, -⟩
      exfalso
      cases hP with
      | band h => have := h.length_le; simp [ringOf] at this
      | join h => have := h.length_le; simp [ringOf] at this
      | over h => have := h.length_le; simp [ringOf] at this
  | [p], hA, _, _ => exact absurd rfl (hA p p ⟨[], [p], rfl⟩)
  | p0 :: p1 :: l, hA, hR, hG =>
    obtain ⟨a, last, hab⟩ : ∃ a last, [a, last] <:+ p0 :: p1 :: l := by
      have h2 := List.drop_suffix ((p0 :: p1 :: l).length - 2) (p0 :: p1 :: l)
      obtain ⟨a, b, hab⟩ := List.length_eq_two.1 (show ((p0 :: p1 :: l).drop ((p0 :: p1 :: l).length - 2)).length = 2 by
        rw [List.length_drop]; simp only [List.length_cons]; omega)
      exact ⟨a, b, hab ▸ h2⟩
    have hd := drawn_outline (toInt := toInt) (δ := δ) j hab hA
    have h2 := ring_side (toInt := toInt) (j := j) (δ := δ) _ (List.infix_rfl (l := ringOf (p0 :: p1 :: l)))
    refine ⟨fun e he => ?_, fun hfar => ?_⟩
    · obtain ⟨d, hd, hj⟩ := hd.edges e he
      obtain ⟨d', hd', rfl⟩ := List.mem_map.1 hd
      rcases h2 d' hd' with h | h
      · exact ⟨_, _, h, hj⟩
      · exact ⟨_, _, h, hj.symm⟩
    · obtain ⟨c1, c2⟩ := ring_covers (j := j) hab hA hR (fromGrid g c q)
      refine ⟨_, ?_, c1, c2⟩
      rw [segsWind_eq_segSum, hd.sum _ (anti_wind q), sum_moved hg (c := c) (δ := Real.sqrt 2 * ein / g) _,
        ring_total j (lineSum_wind _) hab hA hR,
        ring_total j (lineSum_pot fun a => edgeWindC a (fromGrid g c (toInt a).q) (fromGrid g c q)) hab hA hR, cycSum_pot,
        ringVal_pot, polyWindC_eq]
      · ring
      · intro d hdm
        rcases h2 d hdm with h | h
        · obtain ⟨⟨u, hu, r1⟩, ⟨u', hu', r2⟩⟩ := outline_side_reach hA h
          exact ⟨(hG u hu _ r1).close hg, (hG u' hu' _ r2).close hg, hfar _ _ h⟩
        · obtain ⟨⟨u, hu, r1⟩, ⟨u', hu', r2⟩⟩ := outline_side_reach hA h
          exact ⟨(hG u' hu' _ r2).close hg, (hG u hu _ r1).close hg, fun hn => hfar _ _ h hn.symm⟩

end

end IOverlay
