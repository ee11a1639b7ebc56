/-
C73: the shape of the parts of a stroke in exact arithmetic (sections, joins, caps).
-/
import Verif.StrokePieces
import Mathlib.Analysis.Real.Pi.Bounds

namespace IOverlay
open Complex

variable {toInt : ℂ → Pt} {ratio : ℝ}

/-! ### specification -/

/-- The unit vector from `u` to `v`. -/
noncomputable def unitTo (u v : ℂ) : ℂ := (v - u) / ‖v - u‖

/-- `n + 1` points of the circle around `c`, from `c + p` counterclockwise by the angle `φ`, in equal steps. -/
noncomputable def arcPoints (c p : ℂ) (φ : ℝ) (n : Nat) : List ℂ :=
  (List.range (n + 1)).map fun i : ℕ => c + p * exp ((φ / n * (i : ℝ) : ℝ) * I)

/-- The angle of the turn from direction `a` to direction `b`, between 0 and π. -/
noncomputable def turnAngle (a b : ℂ) : ℝ := Real.arccos (a.re * b.re + a.im * b.im)

/-- The path `u v w` turns left. -/
def LeftTurn (u v w : ℂ) : Prop := 0 < (v - u).re * (w - v).im - (v - u).im * (w - v).re

/-! ### proofs -/

theorem section_dir (r : ℝ) (u v : ℂ) : ((realOps toInt ratio).section r u v).dir = unitTo u v := rfl

theorem unitTo_unit {u v : ℂ} (h : u ≠ v) : (unitTo u v).re * (unitTo u v).re + (unitTo u v).im * (unitTo u v).im = 1 := by
  have := (sect_real (toInt := fun _ => ⟨0, 0⟩) (ratio := 0) 0 h).unit
  rwa [section_dir] at this

theorem leftTurn_iff {u v w : ℂ} (h : u ≠ v) (h' : v ≠ w) :
    LeftTurn u v w ↔ 0 < (unitTo u v).re * (unitTo v w).im - (unitTo u v).im * (unitTo v w).re := by
  have n1 : 0 < ‖v - u‖ := norm_pos_iff.2 (_root_.sub_ne_zero.2 h.symm)
  have n2 : 0 < ‖w - v‖ := norm_pos_iff.2 (_root_.sub_ne_zero.2 h'.symm)
  have key : ∀ z : ℂ, ∀ t : ℝ, (z / (t : ℂ)).re = z.re / t ∧ (z / (t : ℂ)).im = z.im / t := fun z t =>
    ⟨Complex.div_ofReal_re z t, Complex.div_ofReal_im z t⟩
  unfold LeftTurn unitTo
  rw [(key _ _).1, (key _ _).1, (key _ _).2, (key _ _).2]
  have e : (v - u).re / ‖v - u‖ * ((w - v).im / ‖w - v‖) - (v - u).im / ‖v - u‖ * ((w - v).re / ‖w - v‖) =
      ((v - u).re * (w - v).im - (v - u).im * (w - v).re) / (‖v - u‖ * ‖w - v‖) := by field_simp
  rw [e]
  constructor
  · intro h; positivity
  · intro h
    by_contra hn
    exact absurd h (not_lt.2 (div_nonpos_of_nonpos_of_nonneg (not_lt.1 hn) (by positivity)))

theorem dot_range {a b : ℂ} (ha : a.re * a.re + a.im * a.im = 1) (hb : b.re * b.re + b.im * b.im = 1) :
    -1 ≤ a.re * b.re + a.im * b.im ∧ a.re * b.re + a.im * b.im ≤ 1 := by
  constructor
  · nlinarith [mul_self_nonneg (a.re + b.re), mul_self_nonneg (a.im + b.im)]
  · nlinarith [mul_self_nonneg (a.re - b.re), mul_self_nonneg (a.im - b.im)]

/-- Turning by the angle of the turn. -/
theorem turn_left {a b : ℂ} (ha : a.re * a.re + a.im * a.im = 1) (hb : b.re * b.re + b.im * b.im = 1)
    (h : 0 < a.re * b.im - a.im * b.re) : b = a * exp (turnAngle a b * I) := by
  obtain ⟨d1, d2⟩ := dot_range ha hb
  have hs : Real.sin (turnAngle a b) = a.re * b.im - a.im * b.re := by
    unfold turnAngle
    rw [Real.sin_arccos]
    rw [show 1 - (a.re * b.re + a.im * b.im) ^ 2 = (a.re * b.im - a.im * b.re) ^ 2 by
      linear_combination (-(b.re * b.re + b.im * b.im)) * ha - hb]
    exact Real.sqrt_sq h.le
  have hc : Real.cos (turnAngle a b) = a.re * b.re + a.im * b.im := Real.cos_arccos d1 d2
  rw [← polar, hs, hc]
  apply Complex.ext
  · simp; linear_combination (-b.re) * ha
  · simp; linear_combination (-b.im) * ha

theorem turn_right {a b : ℂ} (ha : a.re * a.re + a.im * a.im = 1) (hb : b.re * b.re + b.im * b.im = 1)
    (h : ¬ 0 < a.re * b.im - a.im * b.re) : a = b * exp (turnAngle a b * I) := by
  obtain ⟨d1, d2⟩ := dot_range ha hb
  have hs : Real.sin (turnAngle a b) = -(a.re * b.im - a.im * b.re) := by
    unfold turnAngle
    rw [Real.sin_arccos]
    rw [show 1 - (a.re * b.re + a.im * b.im) ^ 2 = (-(a.re * b.im - a.im * b.re)) ^ 2 by
      linear_combination (-(b.re * b.re + b.im * b.im)) * ha - hb]
    exact Real.sqrt_sq (by linarith)
  have hc : Real.cos (turnAngle a b) = a.re * b.re + a.im * b.im := Real.cos_arccos d1 d2
  rw [← polar, hs, hc]
  apply Complex.ext
  · simp; linear_combination (-a.re) * hb
  · simp; linear_combination (-a.im) * hb

/-- The inner points of an arc, between its ends, reversed. -/
theorem arc_closed (c p p' : ℂ) (r φ : ℝ) (n : Nat) (hn : 0 < n) (hp : p' = p * exp (φ * I)) :
    toInt (c + p * r) :: ((realOps toInt ratio).arc (Real.cos (-(φ / n)), Real.sin (-(φ / n))) c p' r n).reverse ++
      [toInt (c + p' * r)] = (arcPoints c (p * r) φ n).map toInt := by
  obtain ⟨m, rfl⟩ : ∃ m, n = m + 1 := ⟨n - 1, by omega⟩
  have hn' : ((m + 1 : ℕ) : ℝ) ≠ 0 := by positivity
  apply List.ext_getElem
  · simp [arcPoints, FloatOps.arc]
  · intro i h1 h2
    simp only [arcPoints, List.getElem_map, List.getElem_range]
    simp only [FloatOps.arc, List.length_append, List.length_cons, List.length_reverse, List.length_map, List.length_range,
      List.length_nil, Nat.add_sub_cancel] at h1
    have last : ∀ j : ℕ, j ≤ m + 1 → (exp ((-(φ / (m + 1 : ℕ)) : ℝ) * I)) ^ j * p' =
        p * exp ((φ / (m + 1 : ℕ) * ((m + 1 - j : ℕ) : ℝ) : ℝ) * I) := by
      intro j hj
      rw [hp, ← Complex.exp_nat_mul, mul_comm, mul_assoc, ← Complex.exp_add]
      congr 2
      rw [Nat.cast_sub hj]
      have : ((m + 1 : ℕ) : ℂ) ≠ 0 := by exact_mod_cast hn'
      push_cast at this ⊢
      field_simp
      ring
    rcases Nat.eq_zero_or_pos i with rfl | hi
    · simp
    · obtain ⟨i, rfl⟩ : ∃ j, i = j + 1 := ⟨i - 1, by omega⟩
      simp only [List.cons_append, List.getElem_cons_succ]
      by_cases hlast : i < m
      · rw [List.getElem_append_left (by simp [FloatOps.arc]; omega), List.getElem_reverse]
        simp only [FloatOps.arc, List.getElem_map, List.getElem_range, List.length_map, List.length_range,
          Nat.add_sub_cancel, FloatOps.arcPoint]
        show toInt (c + ((realOps toInt ratio).rotate _ _)^[m - 1 - i + 1] p' * r) = _
        rw [rotate_iter, polar, last _ (by omega)]
        rw [show m + 1 - (m - 1 - i + 1) = i + 1 by omega]
        congr 2
        ring
      · have : i = m := by omega
        subst this
        rw [List.getElem_append_right (by simp [FloatOps.arc])]
        simp only [FloatOps.arc, List.length_reverse, List.length_map, List.length_range, Nat.add_sub_cancel,
          Nat.sub_self, List.getElem_cons_zero]
        congr 1
        have := last 0 (by omega)
        rw [pow_zero, one_mul, Nat.sub_zero] at this
        rw [this]; ring

/-! ### C73 -/

/-- C73 (sides): the rectangle of a section has its corners half the width to the right and left of its ends. -/
theorem C73_section (r : ℝ) {u v : ℂ} (h : u ≠ v) :
    (realOps toInt ratio).quad ((realOps toInt ratio).section r u v) =
      [u - I * unitTo u v * r, v - I * unitTo u v * r, v + I * unitTo u v * r, u + I * unitTo u v * r].map toInt := by
  have hs := sect_real (toInt := toInt) (ratio := ratio) r h
  unfold FloatOps.quad
  rw [hs.aBot, hs.bBot, hs.bTop, hs.aTop, section_dir]
  rfl

/-- The number of steps of a round cap is between 4 and 100. -/
theorem capSteps_range (a : ℝ) : capSteps (clampR a (0.01 * Real.pi) (0.25 * Real.pi)) =
      ⌊Real.pi / clampR a (0.01 * Real.pi) (0.25 * Real.pi)⌋₊ ∧ 4 ≤ capSteps (clampR a (0.01 * Real.pi) (0.25 * Real.pi)) ∧
    capSteps (clampR a (0.01 * Real.pi) (0.25 * Real.pi)) ≤ 100 := by
  have hpi := Real.pi_pos
  set A := clampR a (0.01 * Real.pi) (0.25 * Real.pi)
  have h1 : 0.01 * Real.pi ≤ A := le_max_left _ _
  have h2 : A ≤ 0.25 * Real.pi := max_le (by nlinarith) (min_le_right _ _)
  have h0 : 0 < A := by nlinarith
  have l1 : 4 ≤ ⌊Real.pi / A⌋₊ := by
    apply Nat.le_floor
    rw [le_div_iff₀ h0]
    push_cast; nlinarith
  have l2 : ⌊Real.pi / A⌋₊ ≤ 100 := by
    apply Nat.floor_le_of_le
    rw [div_le_iff₀ h0]
    push_cast; nlinarith
  unfold capSteps
  rw [if_pos h0]
  omega

theorem cap_arc (c p : ℂ) (r φ : ℝ) (n : Nat) (hn : 0 < n) :
    toInt (c + p * r) :: ((List.range (n - 1)).map fun i : ℕ => toInt (c + exp ((φ / n : ℝ) * I) ^ (i + 1) * p * r)) ++
      [toInt (c + p * exp (φ * I) * r)] = (arcPoints c (p * r) φ n).map toInt := by
  obtain ⟨m, rfl⟩ : ∃ m, n = m + 1 := ⟨n - 1, by omega⟩
  have hn' : ((m + 1 : ℕ) : ℂ) ≠ 0 := by exact_mod_cast Nat.succ_ne_zero m
  rw [Nat.add_sub_cancel, arcPoints, List.range_succ, List.map_append, List.map_append, List.range_succ_eq_map]
  simp only [List.map_cons, List.map_nil, List.map_map, List.cons_append]
  congr 1
  · simp
  · congr 1
    · refine List.map_congr_left fun i _ => ?_
      simp only [Function.comp]
      rw [← Complex.exp_nat_mul]
      congr 2
      rw [mul_comm (exp _) p, mul_right_comm]
      congr 2
      push_cast
      ring
    · congr 2
      rw [mul_right_comm]
      congr 3
      push_cast at hn' ⊢
      field_simp

/-- C73 (round caps): the cap is a half circle around the end of the path, from one side to the other, in 4 to 100 equal
steps (as many as `a`, clamped to 0.01 π … π / 4, fits into π). -/
theorem C73_round_cap (a : ℝ) (s : StrokeStyle) {u v : ℂ} (h : u ≠ v) :
    ∃ n, n = ⌊Real.pi / clampR a (0.01 * Real.pi) (0.25 * Real.pi)⌋₊ ∧ 4 ≤ n ∧ n ≤ 100 ∧
      (s.startCap = .round a → (realOps toInt ratio).startPiece s.params.startCap ((realOps toInt ratio).section s.radius u v) =
        (arcPoints u (I * unitTo u v * s.radius) Real.pi n).map toInt) ∧
      (s.endCap = .round a → (realOps toInt ratio).endPiece s.params.endCap ((realOps toInt ratio).section s.radius u v) =
        (arcPoints v (-(I * unitTo u v) * s.radius) Real.pi n).map toInt) := by
  obtain ⟨n0, n1, n2⟩ := capSteps_range a
  have hs := sect_real (toInt := toInt) (ratio := ratio) s.radius h
  refine ⟨_, n0, n1, n2, fun hc => ?_, fun hc => ?_⟩
  · rw [← cap_arc _ _ _ _ _ (by omega)]
    unfold FloatOps.startPiece
    rw [hs.aTop, hs.aBot, section_dir, exp_pi_mul_I]
    simp only [StrokeStyle.params, hc, LineCap.normalize, LineCap.points, Option.getD_some]
    rw [capArc_eq, List.map_map]
    congr 1
    · congr 1
      refine List.map_congr_left fun i _ => ?_
      show toInt ((realOps toInt ratio).rotate (-(unitTo u v).re) (-(unitTo u v).im) _ + u) = _
      rw [rotate_real]
      congr 1
      have e1 : (⟨-(unitTo u v).re, -(unitTo u v).im⟩ : ℂ) = -unitTo u v := by apply Complex.ext <;> simp
      have e2 : (⟨0, -1⟩ : ℂ) = -I := by apply Complex.ext <;> simp
      rw [e1, e2]; ring
    · show [toInt (u - I * unitTo u v * s.radius)] = _
      congr 2; ring
  · rw [← cap_arc _ _ _ _ _ (by omega)]
    unfold FloatOps.endPiece
    rw [hs.bTop, hs.bBot, section_dir, exp_pi_mul_I]
    simp only [StrokeStyle.params, hc, LineCap.normalize, LineCap.points, Option.getD_some]
    rw [capArc_eq, List.map_map]
    congr 1
    · congr 1
      · show toInt (v - I * unitTo u v * s.radius) = _
        congr 1; ring
      · refine List.map_congr_left fun i _ => ?_
        show toInt ((realOps toInt ratio).rotate (unitTo u v).re (unitTo u v).im _ + v) = _
        rw [rotate_real]
        congr 1
        have e2 : (⟨0, -1⟩ : ℂ) = -I := by apply Complex.ext <;> simp
        rw [show (⟨(unitTo u v).re, (unitTo u v).im⟩ : ℂ) = unitTo u v from rfl, e2]; ring
    · show [toInt (v + I * unitTo u v * s.radius)] = _
      congr 2; ring

/-- C73 (other caps): a butt cap adds nothing; a square cap prolongs both sides by half the width; a custom cap consists of the
given points, in units of half the width, with the first coordinate pointing outwards. -/
theorem C73_cap (s : StrokeStyle) {u v : ℂ} (h : u ≠ v) (cap : LineCap) (hr : ∀ a, cap ≠ .round a) :
    let d := unitTo u v
    let ps : List ℂ := match cap with
      | .square => [⟨1, -1⟩, ⟨1, 1⟩]
      | .custom ps => ps
      | _ => []
    (s.startCap = cap → (realOps toInt ratio).startPiece s.params.startCap ((realOps toInt ratio).section s.radius u v) =
      ((u + I * d * s.radius) :: ps.map (fun p : ℂ => u - d * (p * s.radius)) ++ [u - I * d * s.radius]).map toInt) ∧
    (s.endCap = cap → (realOps toInt ratio).endPiece s.params.endCap ((realOps toInt ratio).section s.radius u v) =
      ((v - I * d * s.radius) :: ps.map (fun p : ℂ => v + d * (p * s.radius)) ++ [v + I * d * s.radius]).map toInt) := by
  intro d ps
  have hs := sect_real (toInt := toInt) (ratio := ratio) s.radius h
  have e1 : (⟨-(unitTo u v).re, -(unitTo u v).im⟩ : ℂ) = -unitTo u v := by apply Complex.ext <;> simp
  have e2 : ((cap.normalize.points s.radius).getD []) = ps.map fun p : ℂ => p * s.radius := by
    cases cap with
    | butt => rfl
    | round a => exact absurd rfl (hr a)
    | square =>
      simp only [LineCap.normalize, LineCap.points, Option.getD_some, ps, List.map_cons, List.map_nil]
      congr 1
      · apply Complex.ext <;> simp
      · congr 1
        apply Complex.ext <;> simp
    | custom qs => rfl
  constructor
  · intro hc
    unfold FloatOps.startPiece
    rw [hs.aTop, hs.aBot, section_dir]
    simp only [StrokeStyle.params, hc, e2, List.map_map, List.map_cons, List.map_append, List.map_nil]
    congr 1
    congr 1
    refine List.map_congr_left fun p _ => ?_
    show toInt ((realOps toInt ratio).rotate (-(unitTo u v).re) (-(unitTo u v).im) _ + u) = toInt _
    rw [rotate_real, e1]
    congr 1; ring
  · intro hc
    unfold FloatOps.endPiece
    rw [hs.bTop, hs.bBot, section_dir]
    simp only [StrokeStyle.params, hc, e2, List.map_map, List.map_cons, List.map_append, List.map_nil]
    congr 1
    congr 1
    refine List.map_congr_left fun p _ => ?_
    show toInt ((realOps toInt ratio).rotate (unitTo u v).re (unitTo u v).im _ + v) = toInt _
    rw [rotate_real]
    congr 1
    rw [show (⟨(unitTo u v).re, (unitTo u v).im⟩ : ℂ) = unitTo u v from rfl]; ring

/-! ### joins -/

/-- The joint between two consecutive sections, as registered for the given style: the extra points on the left (`top`) and right
(`bot`) side. -/
def JointPoints (toInt : ℂ → Pt) (s : StrokeStyle) (u v w : ℂ) (top bot : List Pt) : Prop :=
  let o := realOps toInt s.join.normalize.ratio
  s.params.join.Extra o (o.section s.radius u v) (o.section s.radius v w) top bot

/-- C73 (bevel): nothing is added at a corner. -/
theorem C73_bevel (s : StrokeStyle) (hj : s.join = .bevel) (u v w : ℂ) (top bot : List Pt)
    (h : JointPoints toInt s u v w top bot) : top = [] ∧ bot = [] := by
  unfold JointPoints StrokeStyle.params at h
  rw [hj] at h
  exact h

/-- C73 (round joins): nothing is added if the path turns by less than the step angle `a` (clamped to 0.01 π … π / 4).
Otherwise the outer side is a circular arc around the corner, from one side to the other, in equal steps (as many as `a` fits
into the angle of the turn, rounded) of less than 1.5 `a`; nothing is added on the inner side. -/
theorem C73_round_join (s : StrokeStyle) (a : ℝ) (hj : s.join = .round a) {u v w : ℂ} (h1 : u ≠ v) (h2 : v ≠ w)
    (top bot : List Pt) (h : JointPoints toInt s u v w top bot) :
    let A := clampR a (0.01 * Real.pi) (0.25 * Real.pi)
    let d0 := unitTo u v
    let d1 := unitTo v w
    let φ := turnAngle d0 d1
    if φ < A then top = [] ∧ bot = []
    else ∃ n : ℕ, n = ⌊φ / A + 1 / 2⌋₊ ∧ 1 ≤ n ∧ n ≤ φ / A + 1 / 2 ∧ φ / n < 3 / 2 * A ∧
      (LeftTurn u v w → top = [] ∧ toInt (v - I * d0 * s.radius) :: bot ++ [toInt (v - I * d1 * s.radius)] =
        (arcPoints v (-(I * d0) * s.radius) φ n).map toInt) ∧
      (¬ LeftTurn u v w → bot = [] ∧ toInt (v + I * d1 * s.radius) :: top ++ [toInt (v + I * d0 * s.radius)] =
        (arcPoints v (I * d1 * s.radius) φ n).map toInt) := by
  intro A d0 d1 φ
  have hpi := Real.pi_pos
  have hA1 : 0.01 * Real.pi ≤ A := le_max_left _ _
  have hA2 : A ≤ 0.25 * Real.pi := max_le (by nlinarith) (min_le_right _ _)
  have hA0 : 0 < A := by nlinarith
  have hmin : min A (0.25 * Real.pi) = A := min_eq_left hA2
  obtain ⟨b1, b2⟩ := dot_range (unitTo_unit h1) (unitTo_unit h2)
  have hφ0 : 0 ≤ φ := Real.arccos_nonneg _
  have hφ1 : φ ≤ Real.pi := Real.arccos_le_pi _
  have hcos : Real.cos φ = d0.re * d1.re + d0.im * d1.im := Real.cos_arccos b1 b2
  have hratio : s.join.normalize.ratio = A := by rw [hj]; exact hmin
  have hbuild : s.params.join = .round (Real.cos A) s.radius true := by
    unfold StrokeStyle.params
    rw [hj]
    show Join.round (Real.cos (min A (0.25 * Real.pi))) s.radius true = _
    rw [hmin]
  unfold JointPoints at h
  rw [hbuild, hratio] at h
  simp only [Join.Extra] at h
  change (if (realOps toInt A).lt (Real.cos A) (d0.re * d1.re + d0.im * d1.im) = true then _ else _) at h
  have hiff : Real.cos A < Real.cos φ ↔ φ < A := by
    constructor
    · intro hc
      by_contra hn
      exact absurd hc (not_lt.2 (Real.cos_le_cos_of_nonneg_of_le_pi hA0.le hφ1 (not_lt.1 hn)))
    · intro hc
      exact Real.cos_lt_cos_of_nonneg_of_le_pi hφ0 (by nlinarith) hc
  have hcond : (realOps toInt A).lt (Real.cos A) (d0.re * d1.re + d0.im * d1.im) = true ↔ φ < A := by
    rw [← hiff, hcos]
    exact decide_eq_true_iff
  by_cases hsmall : φ < A
  · rw [if_pos (hcond.2 hsmall)] at h
    simpa only [if_pos hsmall] using h
  rw [if_neg fun hc => hsmall (hcond.1 hc)] at h
  rw [if_neg hsmall]
  set n := ⌊φ / A + 1 / 2⌋₊ with hn
  have hx : 1 ≤ φ / A := by rw [le_div_iff₀ hA0]; linarith
  have hn1 : 1 ≤ n := Nat.le_floor (by push_cast; linarith)
  have hn2 : φ / A + 1 / 2 < n + 1 := Nat.lt_floor_add_one _
  have hnpos : (0 : ℝ) < n := by exact_mod_cast hn1
  have hn1' : (1 : ℝ) ≤ n := by exact_mod_cast hn1
  have hstep : φ / n < 3 / 2 * A := by
    rw [div_lt_iff₀ hnpos]
    have : φ / A < n + 1 / 2 := by linarith
    rw [div_lt_iff₀ hA0] at this
    nlinarith
  have hn3 : (n : ℝ) ≤ φ / A + 1 / 2 := Nat.floor_le (by linarith)
  refine ⟨n, rfl, hn1, hn3, hstep, fun hl => ?_, fun hl => ?_⟩
  · rw [leftTurn_iff h1 h2] at hl
    rw [if_pos (by
      show decide ((0 : ℝ) < d0.re * d1.im - d0.im * d1.re) = true
      exact decide_eq_true hl)] at h
    refine ⟨h.1, ?_⟩
    rw [h.2]
    have key := arc_closed (toInt := toInt) (ratio := A) v (-(I * d0)) (-(I * d1)) s.radius φ n hn1 (by
      have := turn_left (unitTo_unit h1) (unitTo_unit h2) hl
      show -(I * unitTo v w) = -(I * unitTo u v) * exp (turnAngle (unitTo u v) (unitTo v w) * I)
      linear_combination (-I) * this)
    rw [← key]
    have e1 : (⟨d1.im, -d1.re⟩ : ℂ) = -(I * d1) := by apply Complex.ext <;> simp
    have e2 : v - I * d0 * s.radius = v + -(I * d0) * s.radius := by ring
    have e3 : v - I * d1 * s.radius = v + -(I * d1) * s.radius := by ring
    rw [e2, e3]
    have e5 : ((realOps toInt A).arcRotator true (Real.cos φ)) = (Real.cos (-(φ / n)), Real.sin (-(φ / n))) := by
      show (Real.cos (-(Real.arccos (Real.cos φ) / (⌊Real.arccos (Real.cos φ) / A + 1 / 2⌋₊ : ℝ))), _) = _
      rw [Real.arccos_cos hφ0 hφ1]
    have e6 : ((realOps toInt A).arcCount (Real.cos φ)) = n := by
      show ⌊Real.arccos (Real.cos φ) / A + 1 / 2⌋₊ = _
      rw [Real.arccos_cos hφ0 hφ1]
    have e7 : (realOps toInt A).fromXY d1.im (-d1.re) = -(I * d1) := e1
    show _ :: ((realOps toInt A).arc ((realOps toInt A).arcRotator true (d0.re * d1.re + d0.im * d1.im)) v
      ((realOps toInt A).fromXY d1.im (-d1.re)) s.radius ((realOps toInt A).arcCount (d0.re * d1.re + d0.im * d1.im))).reverse ++ _ = _
    rw [← hcos, e5, e6, e7]
  · rw [leftTurn_iff h1 h2] at hl
    rw [if_neg (by
      show ¬ decide ((0 : ℝ) < d0.re * d1.im - d0.im * d1.re) = true
      rw [decide_eq_true_eq]; exact hl)] at h
    refine ⟨h.1, ?_⟩
    rw [h.2]
    have key := arc_closed (toInt := toInt) (ratio := A) v (I * d1) (I * d0) s.radius φ n hn1 (by
      have := turn_right (unitTo_unit h1) (unitTo_unit h2) hl
      show I * unitTo u v = I * unitTo v w * exp (turnAngle (unitTo u v) (unitTo v w) * I)
      linear_combination I * this)
    rw [← key]
    have e1 : (⟨-d0.im, d0.re⟩ : ℂ) = I * d0 := by apply Complex.ext <;> simp
    have e5 : ((realOps toInt A).arcRotator true (Real.cos φ)) = (Real.cos (-(φ / n)), Real.sin (-(φ / n))) := by
      show (Real.cos (-(Real.arccos (Real.cos φ) / (⌊Real.arccos (Real.cos φ) / A + 1 / 2⌋₊ : ℝ))), _) = _
      rw [Real.arccos_cos hφ0 hφ1]
    have e6 : ((realOps toInt A).arcCount (Real.cos φ)) = n := by
      show ⌊Real.arccos (Real.cos φ) / A + 1 / 2⌋₊ = _
      rw [Real.arccos_cos hφ0 hφ1]
    have e7 : (realOps toInt A).fromXY (-d0.im) d0.re = I * d0 := e1
    show _ :: ((realOps toInt A).arc ((realOps toInt A).arcRotator true (d0.re * d1.re + d0.im * d1.im)) v
      ((realOps toInt A).fromXY (-d0.im) d0.re) s.radius ((realOps toInt A).arcCount (d0.re * d1.re + d0.im * d1.im))).reverse ++ _ = _
    rw [← hcos, e5, e6, e7]

/-- The tip of a miter is at the distance given by half the angle of the turn. -/
theorem tip_length {a b : ℂ} {ρ k φ : ℝ} (ha : a.re * a.re + a.im * a.im = 1) (hb : b = a * exp (φ * I))
    (h0 : 0 ≤ φ) (h1 : φ < Real.pi) (h : I * a * ρ + a * k = I * b * ρ - b * k) : k = -ρ * Real.tan (φ / 2) := by
  have hne : a ≠ 0 := by
    rintro rfl
    simp at ha
  have e : (k : ℂ) * (1 + exp (φ * I)) = I * ρ * (exp (φ * I) - 1) := by
    apply mul_left_cancel₀ hne
    rw [hb] at h
    linear_combination h
  rw [← polar] at e
  have er := congrArg Complex.re e
  simp at er
  have hc : Real.cos (φ / 2) ≠ 0 := (Real.cos_pos_of_mem_Ioo ⟨by linarith [Real.pi_pos], by linarith⟩).ne'
  have hs2 : Real.sin φ = 2 * Real.sin (φ / 2) * Real.cos (φ / 2) := by rw [← Real.sin_two_mul]; congr 1; ring
  have hc2 : Real.cos φ = 2 * Real.cos (φ / 2) ^ 2 - 1 := by rw [← Real.cos_two_mul]; congr 1; ring
  rw [hs2, hc2] at er
  rw [Real.tan_eq_sin_div_cos]
  rw [mul_div_assoc', eq_div_iff hc]
  apply mul_right_cancel₀ (mul_ne_zero two_ne_zero hc)
  linear_combination er

/-- C73 (miter joins): nothing is added at a corner that is nearly straight (sine of the turn below 0.0001) or whose two corner
points coincide on the grid. Otherwise, on the outer side only: if the inner angle at the corner is smaller than the limit `A`, both
sides are prolonged by half the width / tan (A / 2); if not, they are prolonged up to the point where they meet, that is by
half the width · tan (turn / 2) (this point is left out if it falls on one of the two corner points). -/
theorem C73_miter (s : StrokeStyle) (a : ℝ) (hj : s.join = .miter a) {u v w : ℂ} (h1 : u ≠ v) (h2 : v ≠ w)
    (top bot : List Pt) (h : JointPoints toInt s u v w top bot) :
    let A := clampR a (0.01 * Real.pi) (0.99 * Real.pi)
    let d0 := unitTo u v
    let d1 := unitTo v w
    let φ := turnAngle d0 d1
    let r := s.radius
    if |d0.re * d1.im - d0.im * d1.re| < 0.0001 then top = [] ∧ bot = []
    else
      (LeftTurn u v w → top = [] ∧
        if toInt (v - I * d0 * r) = toInt (v - I * d1 * r) then bot = []
        else if Real.pi - φ < A then
          bot = [toInt (v - I * d0 * r + d0 * (r / Real.tan (A / 2) : ℝ)), toInt (v - I * d1 * r - d1 * (r / Real.tan (A / 2) : ℝ))]
        else
          v - I * d0 * r + d0 * (r * Real.tan (φ / 2) : ℝ) = v - I * d1 * r - d1 * (r * Real.tan (φ / 2) : ℝ) ∧
          let tip := toInt (v - I * d0 * r + d0 * (r * Real.tan (φ / 2) : ℝ))
          bot = if tip = toInt (v - I * d0 * r) ∨ tip = toInt (v - I * d1 * r) then [] else [tip]) ∧
      (¬ LeftTurn u v w → bot = [] ∧
        if toInt (v + I * d0 * r) = toInt (v + I * d1 * r) then top = []
        else if Real.pi - φ < A then
          top = [toInt (v + I * d1 * r - d1 * (r / Real.tan (A / 2) : ℝ)), toInt (v + I * d0 * r + d0 * (r / Real.tan (A / 2) : ℝ))]
        else
          v + I * d0 * r + d0 * (r * Real.tan (φ / 2) : ℝ) = v + I * d1 * r - d1 * (r * Real.tan (φ / 2) : ℝ) ∧
          let tip := toInt (v + I * d0 * r + d0 * (r * Real.tan (φ / 2) : ℝ))
          top = if tip = toInt (v + I * d0 * r) ∨ tip = toInt (v + I * d1 * r) then [] else [tip]) := by
  intro A d0 d1 φ r
  obtain ⟨p0, p1, p2⟩ := miter_angle a
  change 0 < A at p0
  change A < Real.pi at p1
  change max A 0.01 = A at p2
  have u0 := unitTo_unit h1
  have u1 := unitTo_unit h2
  change d0.re * d0.re + d0.im * d0.im = 1 at u0
  change d1.re * d1.re + d1.im * d1.im = 1 at u1
  obtain ⟨b1, b2⟩ := dot_range u0 u1
  have hφ0 : 0 ≤ φ := Real.arccos_nonneg _
  have hφ1 : φ ≤ Real.pi := Real.arccos_le_pi _
  have hcos : Real.cos φ = d0.re * d1.re + d0.im * d1.im := Real.cos_arccos b1 b2
  have hbuild : s.params.join = .miter (-Real.cos A) (r / Real.tan (A / 2)) true := by
    unfold StrokeStyle.params
    rw [hj]
    show Join.miter (-Real.cos (max A 0.01)) (s.radius / Real.tan (0.5 * max A 0.01)) true = _
    rw [p2, show 0.5 * A = A / 2 by ring]
  unfold JointPoints at h
  rw [hbuild] at h
  generalize hratio : s.join.normalize.ratio = ratio at h
  have s0 := sect_real (toInt := toInt) (ratio := ratio) r h1
  have s1 := sect_real (toInt := toInt) (ratio := ratio) r h2
  have hdot : (realOps toInt ratio).lt (d0.re * d1.re + d0.im * d1.im) (-Real.cos A) = decide (Real.pi - φ < A) := by
    show decide _ = decide _
    congr 1
    rw [← hcos, ← Real.cos_pi_sub, eq_iff_iff]
    constructor
    · intro hc
      by_contra hn
      exact absurd hc (not_lt.2 (Real.cos_le_cos_of_nonneg_of_le_pi hφ0 (by linarith) (by linarith)))
    · intro hc
      exact Real.cos_lt_cos_of_nonneg_of_le_pi (by linarith) hφ1 (by linarith)
  have hlim : ¬ Real.pi - φ < A → φ < Real.pi := by intro hn; linarith
  simp only [Join.Extra] at h
  by_cases hsm : |d0.re * d1.im - d0.im * d1.re| < 0.0001
  · rw [if_pos (by
      show decide (|d0.re * d1.im - d0.im * d1.re| < 0.0001) = true
      exact decide_eq_true hsm)] at h
    rw [if_pos hsm]
    exact h
  rw [if_neg (by
    show ¬ decide (|d0.re * d1.im - d0.im * d1.re| < 0.0001) = true
    rw [decide_eq_true_eq]; exact hsm)] at h
  rw [if_neg hsm]
  refine ⟨fun hl => ?_, fun hl => ?_⟩
  · rw [leftTurn_iff h1 h2] at hl
    rw [if_pos (by
      show decide ((0 : ℝ) < d0.re * d1.im - d0.im * d1.re) = true
      exact decide_eq_true hl)] at h
    refine ⟨h.1, ?_⟩
    have hb := h.2
    rw [behind_real, ahead_real, show ((realOps toInt ratio).section s.radius v w).aBot = v - I * d1 * r from s1.aBot,
      show ((realOps toInt ratio).section s.radius u v).bBot = v - I * d0 * r from s0.bBot,
      show ((realOps toInt ratio).section s.radius v w).dir = d1 from rfl,
      show ((realOps toInt ratio).section s.radius u v).dir = d0 from rfl,
      show (realOps toInt ratio).lt ((realOps toInt ratio).dot d0 d1) (-Real.cos A) = decide (Real.pi - φ < A) from hdot] at hb
    unfold FloatOps.miterPoints at hb
    have ht : ∀ z, (realOps toInt ratio).toInt z = toInt z := fun _ => rfl
    simp only [ht] at hb
    by_cases c1 : toInt (v - I * d0 * r) = toInt (v - I * d1 * r)
    · rw [if_pos c1.symm] at hb
      rw [if_pos c1]; exact hb
    rw [if_neg fun hc => c1 hc.symm] at hb
    rw [if_neg c1]
    by_cases c2 : Real.pi - φ < A
    · rw [if_pos (decide_eq_true c2)] at hb
      rw [if_pos c2, hb]; rfl
    rw [if_neg (by rw [decide_eq_true_eq]; exact c2)] at hb
    rw [if_neg c2]
    have hturn : d1 = d0 * exp (φ * I) := turn_left u0 u1 hl
    have hne : d1 + d0 ≠ 0 := by
      intro hc
      have hd : d1 = -d0 := eq_neg_of_add_eq_zero_left hc
      change 0 < d0.re * d1.im - d0.im * d1.re at hl
      rw [hd] at hl
      simp only [Complex.neg_re, Complex.neg_im] at hl
      linarith
    obtain ⟨k, k1, k2, -⟩ := miterTip_real (toInt := toInt) (ratio := ratio) (c := v) (ρ := -r) u1 u0 hne
    have hk : -k = r * Real.tan (φ / 2) := by
      have := tip_length (ρ := -r) (k := -k) u0 hturn hφ0 (hlim c2) (by push_cast at k2 ⊢; linear_combination -k2)
      rw [this]; ring
    have f0 : v - I * d0 * r + d0 * (r * Real.tan (φ / 2) : ℝ) = v + I * d1 * (-r : ℝ) + d1 * k := by
      rw [k2, ← hk]; push_cast; ring
    have f1 : (realOps toInt ratio).miterTip (v - I * d1 * r) (v - I * d0 * r) d1 d0 =
        v - I * d0 * r + d0 * (r * Real.tan (φ / 2) : ℝ) := by
      rw [f0, ← k1]; push_cast
      congr 1 <;> ring
    refine ⟨?_, ?_⟩
    · rw [f0, ← hk]; push_cast; ring
    · dsimp only
      rw [hb, f1]
      by_cases c3 : toInt (v - I * d0 * r + d0 * (r * Real.tan (φ / 2) : ℝ)) = toInt (v - I * d0 * r) ∨
          toInt (v - I * d0 * r + d0 * (r * Real.tan (φ / 2) : ℝ)) = toInt (v - I * d1 * r)
      · rw [if_pos c3, if_pos (c3.symm.imp Eq.symm Eq.symm)]; rfl
      · rw [if_neg c3, if_neg fun hc => c3 (hc.symm.imp Eq.symm Eq.symm)]; rfl
  · rw [leftTurn_iff h1 h2] at hl
    rw [if_neg (by
      show ¬ decide ((0 : ℝ) < d0.re * d1.im - d0.im * d1.re) = true
      rw [decide_eq_true_eq]; exact hl)] at h
    refine ⟨h.1, ?_⟩
    have hb := h.2
    rw [behind_real, ahead_real, show ((realOps toInt ratio).section s.radius v w).aTop = v + I * d1 * r from s1.aTop,
      show ((realOps toInt ratio).section s.radius u v).bTop = v + I * d0 * r from s0.bTop,
      show ((realOps toInt ratio).section s.radius v w).dir = d1 from rfl,
      show ((realOps toInt ratio).section s.radius u v).dir = d0 from rfl,
      show (realOps toInt ratio).lt ((realOps toInt ratio).dot d0 d1) (-Real.cos A) = decide (Real.pi - φ < A) from hdot] at hb
    unfold FloatOps.miterPoints at hb
    have ht : ∀ z, (realOps toInt ratio).toInt z = toInt z := fun _ => rfl
    simp only [ht] at hb
    by_cases c1 : toInt (v + I * d0 * r) = toInt (v + I * d1 * r)
    · rw [if_pos c1] at hb
      rw [if_pos c1]; exact hb
    rw [if_neg c1] at hb
    rw [if_neg c1]
    by_cases c2 : Real.pi - φ < A
    · rw [if_pos (decide_eq_true c2)] at hb
      rw [if_pos c2, hb]; rfl
    rw [if_neg (by rw [decide_eq_true_eq]; exact c2)] at hb
    rw [if_neg c2]
    have hturn : d0 = d1 * exp (φ * I) := turn_right u0 u1 hl
    have hne : d0 + d1 ≠ 0 := by
      intro hc
      have hd : d1 = -d0 := eq_neg_of_add_eq_zero_right hc
      have : d0.re * d1.re + d0.im * d1.im = -1 := by
        rw [hd]; simp only [Complex.neg_re, Complex.neg_im]; linarith
      have : φ = Real.pi := by show Real.arccos _ = _; rw [this, Real.arccos_neg_one]
      linarith [hlim c2]
    obtain ⟨k, k1, k2, -⟩ := miterTip_real (toInt := toInt) (ratio := ratio) (c := v) (ρ := r) u0 u1 hne
    have hk : k = r * Real.tan (φ / 2) := by
      have := tip_length (ρ := r) (k := -k) u1 hturn hφ0 (hlim c2) (by push_cast at k2 ⊢; linear_combination -k2)
      linarith
    refine ⟨?_, ?_⟩
    · rw [← hk]; exact k2
    · dsimp only
      rw [hb, k1, hk]
      by_cases c3 : toInt (v + I * d0 * r + d0 * (r * Real.tan (φ / 2) : ℝ)) = toInt (v + I * d0 * r) ∨
          toInt (v + I * d0 * r + d0 * (r * Real.tan (φ / 2) : ℝ)) = toInt (v + I * d1 * r)
      · rw [if_pos c3, if_pos (c3.imp Eq.symm Eq.symm)]; rfl
      · rw [if_neg c3, if_neg fun hc => c3 (hc.imp Eq.symm Eq.symm)]; rfl

/-- C73 (documented bound refuted): the step of a round join, documented as the maximum length of a segment relative to the radius,
is exceeded: a turn by 60° with `a = π / 4` and radius 1 is drawn by a single segment of length 1 > π / 4, for every rounding. -/
theorem C73_round_join_long (toInt : ℂ → Pt) (top bot : List Pt) :
    let s : StrokeStyle := (StrokeStyle.new 2).setJoin (.round (Real.pi / 4))
    let w := exp ((Real.pi / 3 : ℝ) * I)
    JointPoints toInt s (-1) 0 w top bot → top = [] ∧ bot = [] ∧ s.radius = 1 ∧
      ‖(0 - I * unitTo (-1) 0 * s.radius) - (0 - I * unitTo 0 w * s.radius)‖ = 1 ∧ Real.pi / 4 < 1 := by
  intro s w h
  have hpi := Real.pi_pos
  have hrad : s.radius = 1 := by
    show 0.5 * max (2 : ℝ) 0 = 1
    rw [max_eq_left (by norm_num)]; norm_num
  have hw : ‖w‖ = 1 := Complex.norm_exp_ofReal_mul_I _
  have hw0 : (0 : ℂ) ≠ w := by intro h0; rw [← h0] at hw; simp at hw
  have e0 : unitTo (-1) 0 = 1 := by unfold unitTo; simp
  have e1 : unitTo 0 w = w := by unfold unitTo; simp [hw]
  have hclamp : clampR (Real.pi / 4) (0.01 * Real.pi) (0.25 * Real.pi) = Real.pi / 4 := by
    unfold clampR
    rw [min_eq_left (by linarith), max_eq_right (by linarith)]
  have hj : s.join = .round (Real.pi / 4) := by
    show LineJoin.round (clampR (Real.pi / 4) (0.01 * Real.pi) (0.25 * Real.pi)) = _
    rw [hclamp]
  have wre : w.re = 1 / 2 := by
    show (exp ((Real.pi / 3 : ℝ) * I)).re = _
    rw [Complex.exp_ofReal_mul_I_re, Real.cos_pi_div_three]
  have wim : w.im = Real.sqrt 3 / 2 := by
    show (exp ((Real.pi / 3 : ℝ) * I)).im = _
    rw [Complex.exp_ofReal_mul_I_im, Real.sin_pi_div_three]
  have hφ : turnAngle 1 w = Real.pi / 3 := by
    unfold turnAngle
    rw [wre, ← Real.cos_pi_div_three]
    simp only [one_re, one_im, one_mul, zero_mul, add_zero]
    exact Real.arccos_cos (by linarith) (by linarith)
  have key := C73_round_join s _ hj (by norm_num : (-1 : ℂ) ≠ 0) hw0 top bot h
  dsimp only at key
  rw [e0, e1, hclamp, hφ, if_neg (by linarith)] at key
  obtain ⟨n, -, n1, n2, -, k1, -⟩ := key
  have hn : n = 1 := by
    have : Real.pi / 3 / (Real.pi / 4) = 4 / 3 := by field_simp
    rw [this] at n2
    have : (n : ℝ) < 2 := by linarith
    have : n < 2 := by exact_mod_cast this
    omega
  subst hn
  have hleft : LeftTurn (-1) 0 w := by
    unfold LeftTurn
    simp only [sub_zero, wim, zero_sub, neg_neg, one_re, one_im]
    have := Real.sqrt_pos.2 (by norm_num : (0 : ℝ) < 3)
    linarith
  obtain ⟨k2, k3⟩ := k1 hleft
  refine ⟨k2, ?_, hrad, ?_, ?_⟩
  · have := congrArg List.length k3
    simp only [arcPoints, List.length_append, List.length_cons, List.length_map, List.length_range, List.length_nil] at this
    exact List.length_eq_zero_iff.1 (by omega)
  · rw [e0, e1, hrad]
    have : ((0 : ℂ) - I * 1 * (1 : ℝ)) - (0 - I * w * (1 : ℝ)) = I * (w - 1) := by push_cast; ring
    rw [this, norm_mul, norm_I, one_mul]
    have hsq : ‖w - 1‖ ^ 2 = 1 := by
      rw [Complex.sq_norm, Complex.normSq_apply, Complex.sub_re, Complex.sub_im, wre, wim, one_re, one_im]
      have := Real.mul_self_sqrt (by norm_num : (0 : ℝ) ≤ 3)
      nlinarith
    nlinarith [norm_nonneg (w - 1)]
  · have := Real.pi_lt_d2
    linarith

/-- Such a joint exists. -/
example (toInt : ℂ → Pt) (s : StrokeStyle) (u v w : ℂ) : ∃ top bot, JointPoints toInt s u v w top bot := by
  unfold JointPoints
  dsimp only
  generalize realOps toInt s.join.normalize.ratio = o
  generalize s.params.join = j
  unfold Join.Extra
  cases j with
  | bevel => exact ⟨[], [], rfl, rfl⟩
  | miter l m e => dsimp only; split_ifs <;> exact ⟨_, _, by first | exact ⟨rfl, rfl⟩⟩
  | round l m e => dsimp only; split_ifs <;> exact ⟨_, _, by first | exact ⟨rfl, rfl⟩⟩

end IOverlay
