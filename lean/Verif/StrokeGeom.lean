/-
The points of strokes in exact arithmetic: distances from the path.
-/
import Verif.StrokeSpec
import Mathlib.Tactic.LinearCombination
import Mathlib.Tactic.Positivity

namespace IOverlay
open Complex

variable {toInt : ℂ → Pt} {ratio : ℝ}

/-! ### sections -/

/-- A section in exact arithmetic. -/
structure Sect (r : ℝ) (s : Section ℂ) : Prop where
  unit : s.dir.re * s.dir.re + s.dir.im * s.dir.im = 1
  aTop : s.aTop = s.a + I * s.dir * r
  bTop : s.bTop = s.b + I * s.dir * r
  aBot : s.aBot = s.a - I * s.dir * r
  bBot : s.bBot = s.b - I * s.dir * r
  along : s.b - s.a = s.dir * ‖s.b - s.a‖

theorem orthoScale_real (p : ℂ) (t : ℝ) : (realOps toInt ratio).orthoScale p t = I * p * t := by
  unfold FloatOps.orthoScale realOps
  dsimp only
  congr 1
  apply Complex.ext <;> simp

theorem unit_norm {d : ℂ} (h : d.re * d.re + d.im * d.im = 1) : ‖d‖ = 1 := by
  have : ‖d‖ ^ 2 = 1 := by rw [Complex.sq_norm, Complex.normSq_apply, h]
  nlinarith [norm_nonneg d]

theorem sect_real (r : ℝ) {a b : ℂ} (h : a ≠ b) : Sect r ((realOps toInt ratio).section r a b) := by
  have hn : (‖b - a‖ : ℝ) ≠ 0 := by rw [norm_ne_zero_iff]; exact _root_.sub_ne_zero.2 h.symm
  have hd : ((realOps toInt ratio).section r a b).dir = (b - a) / ‖b - a‖ := rfl
  refine ⟨?_, ?_, ?_, ?_, ?_, ?_⟩
  · rw [hd]
    have : ‖(b - a) / (‖b - a‖ : ℂ)‖ = 1 := by rw [norm_div, Complex.norm_real, norm_norm, div_self hn]
    rw [← Complex.normSq_apply, ← Complex.sq_norm, this]; norm_num
  · rw [← orthoScale_real (toInt := toInt) (ratio := ratio)]; rfl
  · rw [← orthoScale_real (toInt := toInt) (ratio := ratio)]; rfl
  · rw [← orthoScale_real (toInt := toInt) (ratio := ratio)]; rfl
  · rw [← orthoScale_real (toInt := toInt) (ratio := ratio)]; rfl
  · rw [hd]
    show b - a = (b - a) / ‖b - a‖ * ‖b - a‖
    rw [div_mul_cancel₀]
    exact_mod_cast hn

theorem norm_side {d : ℂ} (h : d.re * d.re + d.im * d.im = 1) {r : ℝ} (hr : 0 ≤ r) : ‖I * d * r‖ = r := by
  rw [norm_mul, norm_mul, unit_norm h, Complex.norm_I, Complex.norm_real, Real.norm_of_nonneg hr]; ring

theorem Sect.side {r : ℝ} (hr : 0 ≤ r) {s : Section ℂ} (h : Sect r s) :
    ‖s.aTop - s.a‖ = r ∧ ‖s.bTop - s.b‖ = r ∧ ‖s.aBot - s.a‖ = r ∧ ‖s.bBot - s.b‖ = r := by
  have := norm_side h.unit hr
  rw [h.aTop, h.bTop, h.aBot, h.bBot]
  simp only [add_sub_cancel_left, sub_sub_cancel_left, norm_neg]
  exact ⟨this, this, this, this⟩

/-! ### miters -/

/-- The tip of a miter lies on both sides, at the same distance from their ends. -/
theorem miterTip_real {c va vb : ℂ} {ρ : ℝ} (ha : va.re * va.re + va.im * va.im = 1)
    (hb : vb.re * vb.re + vb.im * vb.im = 1) (hab : va + vb ≠ 0) :
    ∃ k : ℝ, (realOps toInt ratio).miterTip (c + I * va * ρ) (c + I * vb * ρ) va vb = c + I * va * ρ + va * k ∧
      c + I * va * ρ + va * k = c + I * vb * ρ - vb * k ∧
      k * k * (1 + (va.re * vb.re + va.im * vb.im)) = ρ * ρ * (1 - (va.re * vb.re + va.im * vb.im)) := by
  obtain ⟨x1, y1⟩ := va
  obtain ⟨x2, y2⟩ := vb
  obtain ⟨cx, cy⟩ := c
  simp only at ha hb
  have key : ∀ k : ℝ, -ρ * (y2 - y1) = k * (x1 + x2) → ρ * (x2 - x1) = k * (y1 + y2) →
      k * k * (1 + (x1 * x2 + y1 * y2)) = ρ * ρ * (1 - (x1 * x2 + y1 * y2)) := by
    intro k h1 h2
    have e : (k * (x1 + x2)) * (k * (x1 + x2)) + (k * (y1 + y2)) * (k * (y1 + y2)) =
        (-ρ * (y2 - y1)) * (-ρ * (y2 - y1)) + (ρ * (x2 - x1)) * (ρ * (x2 - x1)) := by rw [h1, h2]
    have e1 : (k * (x1 + x2)) * (k * (x1 + x2)) + (k * (y1 + y2)) * (k * (y1 + y2)) =
        k * k * ((x1 * x1 + y1 * y1) + (x2 * x2 + y2 * y2) + 2 * (x1 * x2 + y1 * y2)) := by ring
    have e2 : (-ρ * (y2 - y1)) * (-ρ * (y2 - y1)) + (ρ * (x2 - x1)) * (ρ * (x2 - x1)) =
        ρ * ρ * ((x1 * x1 + y1 * y1) + (x2 * x2 + y2 * y2) - 2 * (x1 * x2 + y1 * y2)) := by ring
    rw [e1, e2, ha, hb] at e
    linarith
  unfold FloatOps.miterTip FloatOps.ahead realOps
  dsimp only
  simp only [decide_eq_true_eq, Complex.add_re, Complex.add_im, Complex.mul_re, Complex.mul_im, Complex.I_re, Complex.I_im,
    Complex.ofReal_re, Complex.ofReal_im]
  have fin : ∀ k : ℝ, -ρ * (y2 - y1) = k * (x1 + x2) → ρ * (x2 - x1) = k * (y1 + y2) →
      (⟨cx, cy⟩ + I * (⟨x1, y1⟩ : ℂ) * ρ + (⟨x1, y1⟩ : ℂ) * k : ℂ) =
        (⟨cx, cy⟩ + I * (⟨x2, y2⟩ : ℂ) * ρ - (⟨x2, y2⟩ : ℂ) * k : ℂ) := by
    intro k h1 h2
    apply Complex.ext
    · simp; linarith
    · simp; linarith
  split
  · rename_i h
    have hx : x1 + x2 ≠ 0 := by
      intro e
      rw [e, abs_zero] at h
      exact absurd h (not_lt.2 (abs_nonneg _))
    obtain ⟨k, hk⟩ : ∃ k : ℝ, -ρ * (y2 - y1) = k * (x1 + x2) := ⟨-ρ * (y2 - y1) / (x1 + x2), by field_simp⟩
    have hk2 : ρ * (x2 - x1) = k * (y1 + y2) := by
      apply mul_right_cancel₀ hx
      linear_combination (y1 + y2) * hk + ρ * hb - ρ * ha
    refine ⟨k, ?_, fin k hk hk2, key k hk hk2⟩
    have : (cx + ((0 * x2 - 1 * y2) * ρ - (0 * y2 + 1 * x2) * 0) - (cx + ((0 * x1 - 1 * y1) * ρ - (0 * y1 + 1 * x1) * 0))) /
        (x1 + x2) = k := by
      rw [div_eq_iff hx, ← hk]; ring
    rw [this]
    apply Complex.ext <;> simp <;> ring
  · rename_i h
    have hy : y1 + y2 ≠ 0 := by
      intro e
      rw [e, abs_zero, not_lt] at h
      have hx : x1 + x2 = 0 := abs_nonpos_iff.1 h
      exact hab (by apply Complex.ext <;> simpa)
    obtain ⟨k, hk⟩ : ∃ k : ℝ, ρ * (x2 - x1) = k * (y1 + y2) := ⟨ρ * (x2 - x1) / (y1 + y2), by field_simp⟩
    have hk2 : -ρ * (y2 - y1) = k * (x1 + x2) := by
      apply mul_right_cancel₀ hy
      linear_combination (x1 + x2) * hk - ρ * hb + ρ * ha
    refine ⟨k, ?_, fin k hk2 hk, key k hk2 hk⟩
    have : (cy + ((0 * x2 - 1 * y2) * 0 + (0 * y2 + 1 * x2) * ρ) - (cy + ((0 * x1 - 1 * y1) * 0 + (0 * y1 + 1 * x1) * ρ))) /
        (y1 + y2) = k := by
      rw [div_eq_iff hy, ← hk]; ring
    rw [this]
    apply Complex.ext <;> simp <;> ring

/-- Points of the grid that come from points within `R` of `c`. -/
def Around (toInt : ℂ → Pt) (R : ℝ) (c : ℂ) (ps : List Pt) : Prop := ∀ p ∈ ps, ∃ z, ‖z - c‖ ≤ R ∧ p = toInt z

theorem Around.mono {R R' : ℝ} {c : ℂ} {ps : List Pt} (h : Around toInt R c ps) (hR : R ≤ R') : Around toInt R' c ps := by
  intro p hp
  obtain ⟨z, h1, h2⟩ := h p hp
  exact ⟨z, h1.trans hR, h2⟩

theorem Around.nil (R : ℝ) (c : ℂ) : Around toInt R c [] := by intro p hp; cases hp

theorem Around.append {R : ℝ} {c : ℂ} {ps qs : List Pt} (h : Around toInt R c ps) (h' : Around toInt R c qs) :
    Around toInt R c (ps ++ qs) := by
  intro p hp
  rcases List.mem_append.1 hp with hp | hp
  · exact h p hp
  · exact h' p hp

theorem Around.cons {R : ℝ} {c z : ℂ} {ps : List Pt} (hz : ‖z - c‖ ≤ R) (h : Around toInt R c ps) :
    Around toInt R c (toInt z :: ps) := by
  intro p hp
  rcases List.mem_cons.1 hp with rfl | hp
  · exact ⟨z, hz, rfl⟩
  · exact h p hp

theorem Around.reverse {R : ℝ} {c : ℂ} {ps : List Pt} (h : Around toInt R c ps) : Around toInt R c ps.reverse :=
  fun p hp => h p (List.mem_reverse.1 hp)

theorem ahead_real (a v : ℂ) (k : ℝ) : (realOps toInt ratio).ahead a v k = a + v * k := by
  unfold FloatOps.ahead realOps
  apply Complex.ext <;> simp <;> ring

theorem behind_real (a v : ℂ) (k : ℝ) : (realOps toInt ratio).behind a v k = a - v * k := by
  unfold FloatOps.behind realOps
  apply Complex.ext <;> simp <;> ring

theorem sq_norm_corner {d : ℂ} (h : d.re * d.re + d.im * d.im = 1) (ρ k : ℝ) :
    ‖I * d * ρ + d * k‖ ^ 2 = ρ * ρ + k * k := by
  have e : I * d * ρ + d * k = d * ((k : ℂ) + ρ * I) := by ring
  rw [e, norm_mul, unit_norm h, one_mul, Complex.sq_norm, Complex.normSq_apply]
  simp; ring

theorem miterPoints_around {R : ℝ} {c pa pb a1 b1 tip : ℂ} {limited : Bool}
    (h1 : limited = true → ‖a1 - c‖ ≤ R ∧ ‖b1 - c‖ ≤ R) (h2 : limited = false → ‖tip - c‖ ≤ R) :
    Around toInt R c ((realOps toInt ratio).miterPoints limited pa pb a1 b1 tip) := by
  unfold FloatOps.miterPoints
  split
  · exact .nil _ _
  · split
    · rename_i h
      exact .cons (h1 h).1 (.cons (h1 h).2 (.nil _ _))
    · rename_i h
      rw [Bool.not_eq_true] at h
      split
      · exact .nil _ _
      · exact .cons (h2 h) (.nil _ _)

/-- The clamped angle of a miter. -/
theorem miter_angle (a : ℝ) : let A := clampR a (0.01 * Real.pi) (0.99 * Real.pi)
    0 < A ∧ A < Real.pi ∧ max A 0.01 = A := by
  intro A
  have hp := Real.one_le_pi_div_two
  have h1 : 0.01 * Real.pi ≤ A := le_max_left _ _
  have h2 : A ≤ 0.99 * Real.pi := max_le (by linarith) (min_le_right _ _)
  refine ⟨by linarith, by linarith, max_eq_left ?_⟩
  norm_num at h1 ⊢; linarith

/-- Points at the corner of a miter. -/
theorem miter_reach {A r : ℝ} (h0 : 0 < A) (h1 : A < Real.pi) (hr : 0 ≤ r) {z c : ℂ} {m : ℝ}
    (hz : ‖z - c‖ ^ 2 = r * r + m) (hm : (r * r + m) * (1 - Real.cos A) ≤ 2 * (r * r)) :
    ‖z - c‖ ≤ r / Real.sin (A / 2) := by
  have hs : 0 < Real.sin (A / 2) := Real.sin_pos_of_pos_of_lt_pi (by linarith) (by linarith)
  have e : 1 - Real.cos A = 2 * (Real.sin (A / 2) * Real.sin (A / 2)) := by
    have h1 := Real.cos_sq_add_sin_sq (A / 2)
    have h2 : Real.cos A = 2 * Real.cos (A / 2) ^ 2 - 1 := by rw [← Real.cos_two_mul]; congr 1; ring
    nlinarith
  rw [le_div_iff₀ hs]
  have hsq : (‖z - c‖ * Real.sin (A / 2)) ^ 2 ≤ r ^ 2 := by
    rw [mul_pow, hz]
    rw [e] at hm
    nlinarith
  exact le_of_sq_le_sq hsq hr

theorem extra_miter {a r : ℝ} (hr : 0 ≤ r) {s0 s1 : Section ℂ} (h0 : Sect r s0) (h1 : Sect r s1) (hc : s1.a = s0.b)
    {top bot : List Pt} (h : ((LineJoin.miter a).normalize.build r).Extra (realOps toInt ratio) s0 s1 top bot) :
    Around toInt ((LineJoin.miter a).reach r) s0.b (top ++ bot) := by
  simp only [LineJoin.reach]
  simp only [LineJoin.normalize, LineJoin.build] at h
  obtain ⟨p0, p1, p2⟩ := miter_angle a
  rw [p2] at h
  generalize clampR a (0.01 * Real.pi) (0.99 * Real.pi) = A at *
  have hs : 0 < Real.sin (A / 2) := Real.sin_pos_of_pos_of_lt_pi (by linarith) (by linarith)
  have hcos : 0 < Real.cos (A / 2) := Real.cos_pos_of_mem_Ioo ⟨by linarith [Real.pi_pos], by linarith⟩
  have e2 : 1 - Real.cos A = 2 * (Real.sin (A / 2) * Real.sin (A / 2)) := by
    have h1 := Real.cos_sq_add_sin_sq (A / 2)
    have h2 : Real.cos A = 2 * Real.cos (A / 2) ^ 2 - 1 := by rw [← Real.cos_two_mul]; congr 1; ring
    nlinarith
  -- the prolonged sides
  have lim : ∀ {d : ℂ} (ρ k : ℝ), d.re * d.re + d.im * d.im = 1 → ρ * ρ = r * r →
      k * k = (r / Real.tan (0.5 * A)) * (r / Real.tan (0.5 * A)) →
      ‖s0.b + I * d * ρ + d * k - s0.b‖ ≤ r / Real.sin (A / 2) := by
    intro d ρ k hd hρ hk
    refine miter_reach p0 p1 hr (m := k * k) ?_ ?_
    · rw [show s0.b + I * d * ρ + d * k - s0.b = I * d * ρ + d * k by ring, sq_norm_corner hd, hρ]
    · rw [hk, e2, show 0.5 * A = A / 2 by ring, Real.tan_eq_sin_div_cos]
      have h1 := Real.cos_sq_add_sin_sq (A / 2)
      have : (r * r + r / (Real.sin (A / 2) / Real.cos (A / 2)) * (r / (Real.sin (A / 2) / Real.cos (A / 2)))) *
          (2 * (Real.sin (A / 2) * Real.sin (A / 2))) =
          2 * (r * r) * (Real.cos (A / 2) ^ 2 + Real.sin (A / 2) ^ 2) := by field_simp; ring
      rw [this, h1, mul_one]
  -- the tip
  have tip : ∀ {va vb : ℂ} (ρ : ℝ), va.re * va.re + va.im * va.im = 1 → vb.re * vb.re + vb.im * vb.im = 1 → ρ * ρ = r * r →
      - Real.cos A ≤ va.re * vb.re + va.im * vb.im →
      ‖(realOps toInt ratio).miterTip (s0.b + I * va * ρ) (s0.b + I * vb * ρ) va vb - s0.b‖ ≤ r / Real.sin (A / 2) := by
    intro va vb ρ ha hb hρ hdot
    have hne : va + vb ≠ 0 := by
      intro e
      have h1 : vb.re = - va.re := by have := congrArg Complex.re e; simp at this; linarith
      have h2 : vb.im = - va.im := by have := congrArg Complex.im e; simp at this; linarith
      rw [h1, h2] at hdot
      nlinarith
    obtain ⟨k, k1, -, k3⟩ := miterTip_real (toInt := toInt) (ratio := ratio) (c := s0.b) (ρ := ρ) ha hb hne
    rw [k1]
    refine miter_reach p0 p1 hr (m := k * k) ?_ ?_
    · rw [show s0.b + I * va * ρ + va * k - s0.b = I * va * ρ + va * k by ring, sq_norm_corner ha, hρ]
    · rw [hρ] at k3
      nlinarith [mul_self_nonneg r, mul_self_nonneg k]
  unfold Join.Extra at h
  dsimp only at h
  have hdot : ∀ u v : ℂ, (realOps toInt ratio).dot u v = u.re * v.re + u.im * v.im := fun _ _ => rfl
  have hlt : ∀ u v : ℝ, (realOps toInt ratio).lt u v = decide (u < v) := fun _ _ => rfl
  split at h
  · rw [h.1, h.2]; exact .nil _ _
  · split at h
    · rw [h.1, h.2, List.nil_append]
      refine Around.reverse (miterPoints_around ?_ ?_)
      · intro _
        rw [behind_real, ahead_real, h1.aBot, h0.bBot, hc]
        constructor
        · have := lim (d := s1.dir) (-r) (-(r / Real.tan (0.5 * A))) h1.unit (by ring) (by ring)
          push_cast at this ⊢
          convert this using 2; ring
        · have := lim (d := s0.dir) (-r) (r / Real.tan (0.5 * A)) h0.unit (by ring) rfl
          push_cast at this ⊢
          convert this using 2; ring
      · intro hl
        rw [hlt, hdot, decide_eq_false_iff_not, not_lt] at hl
        have := tip (va := s1.dir) (vb := s0.dir) (-r) h1.unit h0.unit (by ring) (by linarith)
        rw [h1.aBot, h0.bBot, hc]
        push_cast at this
        rw [show s0.b - I * s1.dir * r = s0.b + I * s1.dir * -r by ring,
          show s0.b - I * s0.dir * r = s0.b + I * s0.dir * -r by ring]
        exact this
    · rw [h.1, h.2, List.append_nil]
      refine Around.reverse (miterPoints_around ?_ ?_)
      · intro _
        rw [behind_real, ahead_real, h1.aTop, h0.bTop, hc]
        constructor
        · exact lim (d := s0.dir) r (r / Real.tan (0.5 * A)) h0.unit rfl rfl
        · have := lim (d := s1.dir) r (-(r / Real.tan (0.5 * A))) h1.unit rfl (by ring)
          push_cast at this ⊢
          convert this using 2; ring
      · intro hl
        rw [hlt, hdot, decide_eq_false_iff_not, not_lt] at hl
        have := tip (va := s0.dir) (vb := s1.dir) r h0.unit h1.unit rfl hl
        rw [h1.aTop, h0.bTop, hc]
        exact this

/-! ### arcs -/

theorem rotate_real (cs sn : ℝ) (v : ℂ) : (realOps toInt ratio).rotate cs sn v = (⟨cs, sn⟩ : ℂ) * v := by
  unfold FloatOps.rotate realOps
  apply Complex.ext <;> simp <;> ring

theorem rotate_iter (cs sn : ℝ) (v : ℂ) (n : Nat) : ((realOps toInt ratio).rotate cs sn)^[n] v = (⟨cs, sn⟩ : ℂ) ^ n * v := by
  induction n generalizing v with
  | zero => simp
  | succ n ih => rw [Function.iterate_succ_apply, rotate_real, ih]; ring

theorem polar (t : ℝ) : (⟨Real.cos t, Real.sin t⟩ : ℂ) = exp (t * I) := by
  apply Complex.ext
  · simp [Complex.exp_ofReal_mul_I_re]
  · simp [Complex.exp_ofReal_mul_I_im]

theorem norm_polar (t : ℝ) : ‖(⟨Real.cos t, Real.sin t⟩ : ℂ)‖ = 1 := by rw [polar, Complex.norm_exp_ofReal_mul_I]

theorem arc_around {r : ℝ} (hr : 0 ≤ r) (t : ℝ) (c : ℂ) {v : ℂ} (hv : ‖v‖ = 1) (n : Nat) :
    Around toInt r c ((realOps toInt ratio).arc (Real.cos t, Real.sin t) c v r n) := by
  intro p hp
  unfold FloatOps.arc at hp
  obtain ⟨i, -, rfl⟩ := List.mem_map.1 hp
  unfold FloatOps.arcPoint
  refine ⟨_, ?_, rfl⟩
  show ‖c + ((realOps toInt ratio).rotate (Real.cos t) (Real.sin t))^[i + 1] v * r - c‖ ≤ r
  rw [rotate_iter, add_sub_cancel_left, norm_mul, norm_mul, norm_pow, norm_polar, hv, Complex.norm_real,
    Real.norm_of_nonneg hr]
  simp

theorem extra_around {j : LineJoin} {r : ℝ} (hr : 0 ≤ r) {s0 s1 : Section ℂ} (h0 : Sect r s0) (h1 : Sect r s1)
    (hc : s1.a = s0.b) {top bot : List Pt}
    (h : (j.normalize.build r).Extra (realOps toInt ratio) s0 s1 top bot) :
    Around toInt (j.reach r) s0.b (top ++ bot) := by
  cases j with
  | bevel =>
    obtain ⟨rfl, rfl⟩ := h
    exact .nil _ _
  | miter a => exact extra_miter hr h0 h1 hc h
  | round a =>
    unfold LineJoin.reach
    simp only [LineJoin.normalize, LineJoin.build, Join.Extra] at h
    have u1 : ‖(realOps toInt ratio).fromXY ((realOps toInt ratio).y s1.dir)
        ((realOps toInt ratio).neg ((realOps toInt ratio).x s1.dir))‖ = 1 := by
      apply unit_norm
      show s1.dir.im * s1.dir.im + -s1.dir.re * -s1.dir.re = 1
      linarith [h1.unit]
    have u0 : ‖(realOps toInt ratio).fromXY ((realOps toInt ratio).neg ((realOps toInt ratio).y s0.dir))
        ((realOps toInt ratio).x s0.dir)‖ = 1 := by
      apply unit_norm
      show -s0.dir.im * -s0.dir.im + s0.dir.re * s0.dir.re = 1
      linarith [h0.unit]
    split at h
    · rw [h.1, h.2]; exact .nil _ _
    · split at h
      · rw [h.1, h.2, List.nil_append]
        exact Around.reverse (arc_around hr _ _ u1 _)
      · rw [h.1, h.2, List.append_nil]
        exact Around.reverse (arc_around hr _ _ u0 _)

end IOverlay
