/-
The joins of an outline, and the windings of its parts (proofs for C77).
-/
import Verif.OutlineParts
import Verif.StrokeNotch

namespace IOverlay
open Complex

theorem cornerShape_around (j : LineJoin) {r φ : ℝ} {v E : ℂ} (r0 : 0 ≤ r) (hφ0 : 0 ≤ φ) (hφ1 : φ ≤ Real.pi)
    (hE : E.re * E.re + E.im * E.im = 1) (flat : Prop) (gone : ℂ → Prop) :
    ArcAround v (v - I * E * r) (v - I * (E * exp (φ * I)) * r) (j.reach r) (cornerShape j r φ v E (E * exp (φ * I)) flat gone) := by
  classical
  have hpi := Real.pi_pos
  have hR := join_reach_ge j r0
  set E' := E * exp (φ * I) with hE'
  have uE' : E'.re * E'.re + E'.im * E'.im = 1 := unit_mul_exp hE φ
  have nE : ∀ F : ℂ, F.re * F.re + F.im * F.im = 1 → ‖v - I * F * r - v‖ = r := by
    intro F hF
    have := norm_frame hF 0 (-r)
    rw [show v - I * F * r - v = ((0 : ℝ) : ℂ) * F + ((-r : ℝ) : ℂ) * (I * F) by push_cast; ring, this]
    rw [show (0 : ℝ) * 0 + -r * -r = r * r by ring]
    exact Real.sqrt_mul_self r0
  have hpq : 0 ≤ areaC v (v - I * E * r) (v - I * E' * r) := by
    have := areaC_turn v (-(I * E) * r) φ
    rw [show v + -(I * E) * r = v - I * E * r by ring, show v + -(I * E) * r * exp (φ * I) = v - I * E' * r by rw [hE']; ring] at this
    rw [this]
    exact mul_nonneg (add_nonneg (mul_self_nonneg _) (mul_self_nonneg _)) (Real.sin_nonneg_of_nonneg_of_le_pi hφ0 hφ1)
  have straight : ArcAround v (v - I * E * r) (v - I * E' * r) (j.reach r) [v - I * E * r, v - I * E' * r] :=
    .pair hpq ((nE E hE).le.trans hR) ((nE E' uE').le.trans hR)
  cases j with
  | bevel =>
    exact straight
  | round a =>
    unfold cornerShape
    dsimp only
    set A := clampR a (0.01 * Real.pi) (0.25 * Real.pi)
    have hA1 : 0.01 * Real.pi ≤ A := le_max_left _ _
    have hA0 : 0 < A := by nlinarith
    split_ifs with hs
    · exact straight
    · have hn1 : 1 ≤ ⌊φ / A + 1 / 2⌋₊ := by
        have hx : 1 ≤ φ / A := by rw [le_div_iff₀ hA0]; linarith
        exact Nat.le_floor (by push_cast; linarith)
      have := arcPoints_around (v := v) (p := v - I * E * r - v) (R := r) hφ0 hφ1 hn1 (nE E hE).le
      rw [show v + (v - I * E * r - v) = v - I * E * r by ring,
        show v + (v - I * E * r - v) * exp (φ * I) = v - I * E' * r by rw [hE']; ring] at this
      exact this
  | miter a =>
    unfold cornerShape
    dsimp only
    obtain ⟨p0, p1, -⟩ := miter_angle a
    set A := clampR a (0.01 * Real.pi) (0.99 * Real.pi) with hAdef
    have hreach : (LineJoin.miter a).reach r = r / Real.sin (A / 2) := rfl
    have sA : 0 < Real.sin (A / 2) := Real.sin_pos_of_pos_of_lt_pi (by linarith) (by linarith)
    have cA : 0 < Real.cos (A / 2) := Real.cos_pos_of_mem_Ioo ⟨by linarith, by linarith⟩
    -- areas and distances of points of the prolonged sides
    have fp : ∀ t : ℝ, v - I * E * r + E * t = v + ((t : ℂ) * E + ((-r : ℝ) : ℂ) * (I * E)) := by intro t; push_cast; ring
    have fq : ∀ t : ℝ, v - I * E' * r - E' * t = v + (((-t : ℝ) : ℂ) * E' + ((-r : ℝ) : ℂ) * (I * E')) := by
      intro t; push_cast; ring
    have a1 : ∀ t : ℝ, 0 ≤ t → 0 ≤ areaC v (v - I * E * r) (v - I * E * r + E * t) := by
      intro t ht
      have := areaC_frame hE v 0 0 0 (-r) t (-r)
      rw [show v + (((0 : ℝ) : ℂ) * E + ((0 : ℝ) : ℂ) * (I * E)) = v by push_cast; ring,
        show v + (((0 : ℝ) : ℂ) * E + ((-r : ℝ) : ℂ) * (I * E)) = v - I * E * r by push_cast; ring, ← fp] at this
      rw [this]
      nlinarith
    have a2 : ∀ t : ℝ, 0 ≤ t → 0 ≤ areaC v (v - I * E' * r - E' * t) (v - I * E' * r) := by
      intro t ht
      have := areaC_frame uE' v 0 0 (-t) (-r) 0 (-r)
      rw [show v + (((0 : ℝ) : ℂ) * E' + ((0 : ℝ) : ℂ) * (I * E')) = v by push_cast; ring,
        show v + (((0 : ℝ) : ℂ) * E' + ((-r : ℝ) : ℂ) * (I * E')) = v - I * E' * r by push_cast; ring, ← fq] at this
      rw [this]
      nlinarith
    have n1 : ∀ t : ℝ, ‖v - I * E * r + E * t - v‖ = Real.sqrt (t * t + r * r) := by
      intro t
      rw [fp, add_sub_cancel_left, norm_frame hE]
      congr 1; ring
    have n2 : ∀ t : ℝ, ‖v - I * E' * r - E' * t - v‖ = Real.sqrt (t * t + r * r) := by
      intro t
      rw [fq, add_sub_cancel_left, norm_frame uE']
      congr 1; ring
    rw [hreach] at straight ⊢
    have hlim : Real.sqrt (r / Real.tan (A / 2) * (r / Real.tan (A / 2)) + r * r) = r / Real.sin (A / 2) := by
      have e2 : r / Real.tan (A / 2) * (r / Real.tan (A / 2)) + r * r = (r / Real.sin (A / 2)) ^ 2 := by
        rw [Real.tan_eq_sin_div_cos]
        have := Real.sin_sq_add_cos_sq (A / 2)
        field_simp
        nlinarith
      rw [e2, Real.sqrt_sq (by positivity)]
    split_ifs with c1 c2 c3
    · exact straight
    · -- limited
      have hm : 0 ≤ r / Real.tan (A / 2) := by rw [Real.tan_eq_sin_div_cos]; positivity
      have hmid : 0 ≤ areaC v (v - I * E * r + E * (r / Real.tan (A / 2) : ℝ)) (v - I * E' * r - E' * (r / Real.tan (A / 2) : ℝ)) := by
        have e1 : v - I * E' * r - E' * (r / Real.tan (A / 2) : ℝ) =
            v + (((-(r / Real.tan (A / 2)) * Real.cos φ + r * Real.sin φ : ℝ) : ℂ) * E +
              ((-(r / Real.tan (A / 2)) * Real.sin φ - r * Real.cos φ : ℝ) : ℂ) * (I * E)) := by
          rw [hE', ← polar]
          apply Complex.ext
          · simp only [add_re, sub_re, mul_re, mul_im, ofReal_re, ofReal_im, I_re, I_im]; ring
          · simp only [add_im, sub_im, mul_re, mul_im, ofReal_re, ofReal_im, I_re, I_im]; ring
        have := areaC_frame hE v 0 0 (r / Real.tan (A / 2)) (-r)
          (-(r / Real.tan (A / 2)) * Real.cos φ + r * Real.sin φ) (-(r / Real.tan (A / 2)) * Real.sin φ - r * Real.cos φ)
        rw [show v + (((0 : ℝ) : ℂ) * E + ((0 : ℝ) : ℂ) * (I * E)) = v by push_cast; ring, ← fp, ← e1] at this
        rw [this]
        have hsin : Real.sin (A + φ) ≤ 0 := by
          have h3 := Real.sin_nonneg_of_nonneg_of_le_pi (x := A + φ - Real.pi) (by linarith) (by linarith)
          rw [Real.sin_sub_pi] at h3
          linarith
        have e4 : (r / Real.tan (A / 2) - 0) * (-(r / Real.tan (A / 2)) * Real.sin φ - r * Real.cos φ - 0) -
            (-r - 0) * (-(r / Real.tan (A / 2)) * Real.cos φ + r * Real.sin φ - 0) =
            (r / Real.sin (A / 2)) ^ 2 * (-Real.sin (A + φ)) := by
          have s2 : Real.sin A = 2 * Real.sin (A / 2) * Real.cos (A / 2) := by rw [← Real.sin_two_mul]; congr 1; ring
          have c2 : Real.cos A = Real.cos (A / 2) ^ 2 - Real.sin (A / 2) ^ 2 := by
            rw [← Real.cos_two_mul']; congr 1; ring
          rw [Real.sin_add, s2, c2, Real.tan_eq_sin_div_cos]
          field_simp
          ring
        rw [e4]
        exact mul_nonneg (by positivity) (by linarith)
      refine ⟨⟨[_, _], rfl⟩, ?_, ?_⟩
      · simp only [List.isChain_cons_cons, List.isChain_singleton, and_true]
        exact ⟨a1 _ hm, hmid, a2 _ hm⟩
      · intro x hx
        simp only [List.mem_cons, List.not_mem_nil, or_false] at hx
        rcases hx with rfl | rfl | rfl | rfl
        · exact straight.near _ (by simp)
        · rw [n1, hlim]
        · rw [n2, hlim]
        · exact straight.near _ (by simp)
    · exact straight
    · -- tip
      have hφ2 : φ / 2 ≤ Real.pi / 2 - A / 2 := by linarith
      have cφ : Real.sin (A / 2) ≤ Real.cos (φ / 2) := by
        rw [← Real.cos_pi_div_two_sub]
        exact Real.cos_le_cos_of_nonneg_of_le_pi (by linarith) (by linarith) hφ2
      have cφ0 : 0 < Real.cos (φ / 2) := sA.trans_le cφ
      have sφ0 : 0 ≤ Real.sin (φ / 2) := Real.sin_nonneg_of_nonneg_of_le_pi (by linarith) (by linarith)
      have ht : 0 ≤ r * Real.tan (φ / 2) := by rw [Real.tan_eq_sin_div_cos]; positivity
      have s2 : Real.sin φ = 2 * Real.sin (φ / 2) * Real.cos (φ / 2) := by rw [← Real.sin_two_mul]; congr 1; ring
      have c2 : Real.cos φ = 2 * Real.cos (φ / 2) ^ 2 - 1 := by rw [← Real.cos_two_mul]; congr 1; ring
      have etip : v - I * E * r + E * (r * Real.tan (φ / 2) : ℝ) = v - I * E' * r - E' * (r * Real.tan (φ / 2) : ℝ) := by
        have key : (-I * r + (r * Real.tan (φ / 2) : ℝ) : ℂ) = exp (φ * I) * (-I * r - (r * Real.tan (φ / 2) : ℝ)) := by
          have hT : r * Real.tan (φ / 2) * Real.cos (φ / 2) = r * Real.sin (φ / 2) := by
            rw [Real.tan_eq_sin_div_cos]; field_simp
          generalize r * Real.tan (φ / 2) = T at hT ⊢
          rw [← polar]
          have sc := Real.sin_sq_add_cos_sq (φ / 2)
          apply Complex.ext
          · simp only [add_re, sub_re, sub_im, mul_re, mul_im, neg_re, neg_im, ofReal_re, ofReal_im, I_re, I_im]
            rw [s2, c2]
            linear_combination (2 * Real.cos (φ / 2)) * hT
          · simp only [add_im, sub_im, sub_re, mul_re, mul_im, neg_re, neg_im, ofReal_re, ofReal_im, I_re, I_im]
            rw [s2, c2]
            linear_combination (2 * Real.sin (φ / 2)) * hT + (2 * r) * sc
        rw [hE']
        linear_combination E * key
      refine ⟨⟨[_], rfl⟩, ?_, ?_⟩
      · simp only [List.isChain_cons_cons, List.isChain_singleton, and_true]
        refine ⟨a1 _ ht, ?_⟩
        rw [etip]
        exact a2 _ ht
      · intro x hx
        simp only [List.mem_cons, List.not_mem_nil, or_false] at hx
        rcases hx with rfl | rfl | rfl
        · exact straight.near _ (by simp)
        · rw [n1]
          have e2 : r * Real.tan (φ / 2) * (r * Real.tan (φ / 2)) + r * r = (r / Real.cos (φ / 2)) ^ 2 := by
            rw [Real.tan_eq_sin_div_cos]
            have := Real.sin_sq_add_cos_sq (φ / 2)
            field_simp
            nlinarith
          rw [e2, Real.sqrt_sq (by positivity)]
          gcongr
        · exact straight.near _ (by simp)

/-! ### the corners of a path -/

theorem turnAngle_symm (a b : ℂ) : turnAngle a b = turnAngle b a := by
  unfold turnAngle
  congr 1; ring

theorem turn_weak_left {a b : ℂ} (ha : a.re * a.re + a.im * a.im = 1) (hb : b.re * b.re + b.im * b.im = 1)
    (h : 0 ≤ a.re * b.im - a.im * b.re) : b = a * exp (turnAngle a b * I) := by
  rw [turnAngle_symm]
  exact turn_right hb ha (by linarith)

theorem outShift_pos {δ : ℝ} (h : 0 < δ) (v : ℂ) (u w : ℂ) : v + outShift δ u w = v - I * unitTo u w * (|δ| : ℝ) := by
  unfold outShift halfLeft
  rw [abs_of_pos h]; ring

theorem outShift_neg {δ : ℝ} (h : ¬ 0 < δ) (v : ℂ) (u w : ℂ) : v + outShift δ u w = v - I * (-unitTo u w) * (|δ| : ℝ) := by
  unfold outShift halfLeft
  rw [abs_of_nonpos (not_lt.1 h)]; push_cast; ring

theorem bendAngle_range (u v w : ℂ) : 0 ≤ bendAngle u v w ∧ bendAngle u v w ≤ Real.pi :=
  ⟨Real.arccos_nonneg _, Real.arccos_le_pi _⟩

section
variable {toInt : ℂ → Pt} {δ : ℝ} {u v w : ℂ}

/-- Where the join begins and ends, counterclockwise. -/
noncomputable def joinFrom (δ : ℝ) (u v w : ℂ) : ℂ := if 0 < δ then v + outShift δ u v else v + outShift δ v w

noncomputable def joinTo (δ : ℝ) (u v w : ℂ) : ℂ := if 0 < δ then v + outShift δ v w else v + outShift δ u v

/-- The directions at an outer corner. -/
theorem outer_turn (h1 : u ≠ v) (h2 : v ≠ w) (ho : OuterCorner δ u v w) :
    (if 0 < δ then unitTo v w else -unitTo u v) =
      (if 0 < δ then unitTo u v else -unitTo v w) * exp (bendAngle u v w * I) := by
  unfold OuterCorner bend at ho
  by_cases hδ : 0 < δ
  · rw [if_pos hδ] at ho
    rw [if_pos hδ, if_pos hδ]
    exact turn_weak_left (unitTo_unit h1) (unitTo_unit h2) ho
  · rw [if_neg hδ] at ho
    rw [if_neg hδ, if_neg hδ]
    have := turn_right (unitTo_unit h1) (unitTo_unit h2) (by linarith)
    unfold bendAngle
    linear_combination -this

theorem cornerArc_around (j : LineJoin) (h1 : u ≠ v) (h2 : v ≠ w) (ho : OuterCorner δ u v w) :
    ArcAround v (joinFrom δ u v w) (joinTo δ u v w) (j.reach |δ|) (cornerArc toInt j δ u v w) := by
  obtain ⟨f0, f1⟩ := bendAngle_range u v w
  have ht := outer_turn h1 h2 ho
  have hE : (if 0 < δ then unitTo u v else -unitTo v w).re * (if 0 < δ then unitTo u v else -unitTo v w).re +
      (if 0 < δ then unitTo u v else -unitTo v w).im * (if 0 < δ then unitTo u v else -unitTo v w).im = 1 := by
    split
    · exact unitTo_unit h1
    · simpa using unitTo_unit h2
  have e1 : joinFrom δ u v w = v - I * (if 0 < δ then unitTo u v else -unitTo v w) * (|δ| : ℝ) := by
    unfold joinFrom
    split
    · exact outShift_pos ‹_› _ _ _
    · exact outShift_neg ‹_› _ _ _
  have e2 : joinTo δ u v w = v - I * (if 0 < δ then unitTo v w else -unitTo u v) * (|δ| : ℝ) := by
    unfold joinTo
    split
    · exact outShift_pos ‹_› _ _ _
    · exact outShift_neg ‹_› _ _ _
  rw [e1, e2, ht]
  unfold cornerArc
  dsimp only
  rw [ht]
  exact cornerShape_around j (abs_nonneg δ) f0 f1 hE _ _

theorem join_wind_nonneg (j : LineJoin) (h1 : u ≠ v) (h2 : v ≠ w) (ho : OuterCorner δ u v w) (z : ℂ) :
    0 ≤ polyWindC (v :: cornerArc toInt j δ u v w) z :=
  fan_nonneg (cornerArc_around (toInt := toInt) j h1 h2 ho).ccw z

/-- Two sides at distance `r` that form the angle `φ` meet. -/
theorem tip_meet {r φ : ℝ} (v E : ℂ) (h0 : 0 ≤ φ) (h1 : φ < Real.pi) :
    v - I * E * r + E * (r * Real.tan (φ / 2) : ℝ) =
      v - I * (E * exp (φ * I)) * r - E * exp (φ * I) * (r * Real.tan (φ / 2) : ℝ) := by
  have cφ0 : 0 < Real.cos (φ / 2) := Real.cos_pos_of_mem_Ioo ⟨by linarith [Real.pi_pos], by linarith⟩
  have s2 : Real.sin φ = 2 * Real.sin (φ / 2) * Real.cos (φ / 2) := by rw [← Real.sin_two_mul]; congr 1; ring
  have c2 : Real.cos φ = 2 * Real.cos (φ / 2) ^ 2 - 1 := by rw [← Real.cos_two_mul]; congr 1; ring
  have key : (-I * r + (r * Real.tan (φ / 2) : ℝ) : ℂ) = exp (φ * I) * (-I * r - (r * Real.tan (φ / 2) : ℝ)) := by
    have hT : r * Real.tan (φ / 2) * Real.cos (φ / 2) = r * Real.sin (φ / 2) := by
      rw [Real.tan_eq_sin_div_cos]; field_simp
    generalize r * Real.tan (φ / 2) = T at hT ⊢
    rw [← polar]
    have sc := Real.sin_sq_add_cos_sq (φ / 2)
    apply Complex.ext
    · simp only [add_re, sub_re, sub_im, mul_re, mul_im, neg_re, neg_im, ofReal_re, ofReal_im, I_re, I_im]
      rw [s2, c2]
      linear_combination (2 * Real.cos (φ / 2)) * hT
    · simp only [add_im, sub_im, sub_re, mul_re, mul_im, neg_re, neg_im, ofReal_re, ofReal_im, I_re, I_im]
      rw [s2, c2]
      linear_combination (2 * Real.sin (φ / 2)) * hT + (2 * r) * sc
  linear_combination E * key

/-- The directions at an inner corner. -/
theorem inner_turn (h1 : u ≠ v) (h2 : v ≠ w) (ho : ¬ OuterCorner δ u v w) :
    (if 0 < δ then unitTo u v else -unitTo v w) =
      (if 0 < δ then unitTo v w else -unitTo u v) * exp (bendAngle u v w * I) := by
  unfold OuterCorner bend at ho
  by_cases hδ : 0 < δ
  · rw [if_pos hδ] at ho
    rw [if_pos hδ, if_pos hδ]
    exact turn_right (unitTo_unit h1) (unitTo_unit h2) (by linarith)
  · rw [if_neg hδ] at ho
    rw [if_neg hδ, if_neg hδ]
    have := turn_weak_left (unitTo_unit h1) (unitTo_unit h2) (by linarith)
    unfold bendAngle
    linear_combination -this

/-- The shifted edges of an inner corner meet. -/
theorem innerTip_eq (h1 : u ≠ v) (h2 : v ≠ w) (ho : ¬ OuterCorner δ u v w) (hf : bendAngle u v w < Real.pi) :
    innerTip δ u v w = v + outShift δ v w + unitTo v w * (|δ| * Real.tan (bendAngle u v w / 2) : ℝ) := by
  have ht := inner_turn h1 h2 ho
  have hm := tip_meet (r := |δ|) v (if 0 < δ then unitTo v w else -unitTo u v) (bendAngle_range u v w).1 hf
  rw [← ht] at hm
  unfold innerTip
  by_cases hδ : 0 < δ
  · simp only [if_pos hδ] at hm
    rw [outShift_pos hδ, outShift_pos hδ]
    exact hm.symm
  · simp only [if_neg hδ] at hm
    rw [outShift_neg hδ, outShift_neg hδ]
    linear_combination hm

theorem over_nonneg (h1 : u ≠ v) (h2 : v ≠ w) (ho : ¬ OuterCorner δ u v w) (hf : bendAngle u v w < Real.pi) (z : ℂ) :
    0 ≤ polyWindC (overshoot δ u v w) z := by
  obtain ⟨f0, f1⟩ := bendAngle_range u v w
  have ht := inner_turn h1 h2 ho
  set φ := bendAngle u v w with hφ
  set T := |δ| * Real.tan (φ / 2) with hT
  have hT0 : 0 ≤ T := by
    rw [hT, Real.tan_eq_sin_div_cos]
    have c0 : 0 < Real.cos (φ / 2) := Real.cos_pos_of_mem_Ioo ⟨by linarith [Real.pi_pos], by linarith⟩
    have s0 : 0 ≤ Real.sin (φ / 2) := Real.sin_nonneg_of_nonneg_of_le_pi (by linarith) (by linarith)
    positivity
  -- the triangle in the frame of its first side
  have tri : ∀ E : ℂ, E.re * E.re + E.im * E.im = 1 →
      0 ≤ areaC (v - I * E * (|δ| : ℝ) + E * T) (v - I * (E * exp (φ * I)) * (|δ| : ℝ)) (v - I * E * (|δ| : ℝ)) := by
    intro E hE
    have e1 : v - I * E * (|δ| : ℝ) + E * T = v + ((T : ℂ) * E + ((-|δ| : ℝ) : ℂ) * (I * E)) := by push_cast; ring
    have e2 : v - I * E * (|δ| : ℝ) = v + (((0 : ℝ) : ℂ) * E + ((-|δ| : ℝ) : ℂ) * (I * E)) := by push_cast; ring
    have e3 : v - I * (E * exp (φ * I)) * (|δ| : ℝ) =
        v + (((|δ| * Real.sin φ : ℝ) : ℂ) * E + ((-(|δ| * Real.cos φ) : ℝ) : ℂ) * (I * E)) := by
      rw [← polar]
      apply Complex.ext
      · simp only [add_re, sub_re, mul_re, mul_im, ofReal_re, ofReal_im, I_re, I_im]; ring
      · simp only [add_im, sub_im, mul_re, mul_im, ofReal_re, ofReal_im, I_re, I_im]; ring
    rw [e1, e3, e2, areaC_frame hE]
    have := Real.cos_le_one φ
    have a0 := abs_nonneg δ
    have : 0 ≤ |δ| * (1 - Real.cos φ) * T := by
      apply mul_nonneg (mul_nonneg a0 (by linarith)) hT0
    nlinarith
  have m1 := innerTip_eq h1 h2 ho hf
  unfold overshoot
  by_cases hδ : 0 < δ
  · simp only [if_pos hδ] at ht
    have := tri (unitTo v w) (unitTo_unit h2)
    rw [← ht, ← outShift_pos hδ, ← outShift_pos hδ, ← m1] at this
    rw [if_pos hδ, windC_three]
    exact triWind_nonneg this z
  · simp only [if_neg hδ] at ht
    have := tri (-unitTo u v) (by simpa using unitTo_unit h1)
    rw [← ht, ← outShift_neg hδ, ← outShift_neg hδ] at this
    have m2 : innerTip δ u v w = v + outShift δ u v + -unitTo u v * T := by unfold innerTip; ring
    rw [← m2] at this
    rw [if_neg hδ, windC_three]
    exact triWind_nonneg this z

/-! ### bands -/

theorem cutOff_nonneg (u v w : ℂ) (hf : ¬ OuterCorner δ u v w → bendAngle u v w < Real.pi) : 0 ≤ cutOff δ u v w := by
  unfold cutOff
  split
  · exact le_refl _
  · have h := hf ‹_›
    have h0 := (bendAngle_range u v w).1
    have c0 : 0 < Real.cos (bendAngle u v w / 2) := Real.cos_pos_of_mem_Ioo ⟨by linarith [Real.pi_pos], by linarith⟩
    have s0 : 0 ≤ Real.sin (bendAngle u v w / 2) := Real.sin_nonneg_of_nonneg_of_le_pi (by linarith) (by linarith)
    rw [Real.tan_eq_sin_div_cos]
    positivity

theorem band_nonneg {t : ℂ} (h : u ≠ v) (c1 : 0 ≤ cutOff δ t u v) (c2 : 0 ≤ cutOff δ u v w)
    (hl : cutOff δ t u v + cutOff δ u v w ≤ ‖v - u‖) (z : ℂ) : 0 ≤ polyWindC (edgeBand δ t u v w) z := by
  have hd := unitTo_unit h
  have hv := unitTo_reach h
  unfold edgeBand
  dsimp only
  set d := unitTo u v with hdd
  set L := ‖v - u‖ with hL
  set x := cutOff δ t u v
  set y := cutOff δ u v w
  have L0 : 0 ≤ L := norm_nonneg _
  have ea : u + outShift δ u v + d * x = u + ((x : ℂ) * d + ((-δ : ℝ) : ℂ) * (I * d)) := by
    unfold outShift halfLeft; rw [← hdd]; push_cast; ring
  have eb : v + outShift δ u v - d * y = u + (((L - y : ℝ) : ℂ) * d + ((-δ : ℝ) : ℂ) * (I * d)) := by
    unfold outShift halfLeft; rw [← hdd]; push_cast; linear_combination hv
  have ev : v = u + ((L : ℂ) * d + ((0 : ℝ) : ℂ) * (I * d)) := by push_cast; linear_combination hv
  have eu : u = u + (((0 : ℝ) : ℂ) * d + ((0 : ℝ) : ℂ) * (I * d)) := by push_cast; ring
  rw [ea, eb]
  set a := u + ((x : ℂ) * d + ((-δ : ℝ) : ℂ) * (I * d)) with ha
  set b := u + (((L - y : ℝ) : ℂ) * d + ((-δ : ℝ) : ℂ) * (I * d)) with hb
  have a1 : areaC u a b = (L - y - x) * δ := by
    have := areaC_frame hd u 0 0 x (-δ) (L - y) (-δ)
    rw [← eu, ← ha, ← hb] at this
    rw [this]; ring
  have a2 : areaC u b v = L * δ := by
    have := areaC_frame hd u 0 0 (L - y) (-δ) L 0
    rw [← eu, ← hb, ← ev] at this
    rw [this]; ring
  have s0 := edgeWindC_swap u b z
  by_cases hδ : 0 < δ
  · rw [if_pos hδ, windC_four]
    have t1 := triWind_nonneg (u := u) (v := a) (w := b) (by rw [a1]; exact mul_nonneg (by linarith) hδ.le) z
    have t2 := triWind_nonneg (u := u) (v := b) (w := v) (by rw [a2]; exact mul_nonneg L0 hδ.le) z
    omega
  · rw [if_neg hδ, windC_four]
    have hδ' := not_lt.1 hδ
    have r1 : areaC u b a = - areaC u a b := by unfold areaC; ring
    have r2 : areaC u v b = - areaC u b v := by unfold areaC; ring
    have t1 := triWind_nonneg (u := u) (v := b) (w := a) (by rw [r1, a1]; nlinarith) z
    have t2 := triWind_nonneg (u := u) (v := v) (w := b) (by rw [r2, a2]; nlinarith) z
    omega

end

end IOverlay
