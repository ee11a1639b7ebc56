/-
The corners and caps of a stroke: outer sides run counterclockwise around the corner (proofs for C76).
-/
import Verif.StrokeDraw
import Verif.Props.Stroke

namespace IOverlay
open Complex

/-! ### frames -/

theorem areaC_frame {d : ℂ} (hd : d.re * d.re + d.im * d.im = 1) (o : ℂ) (x1 y1 x2 y2 x3 y3 : ℝ) :
    areaC (o + (x1 * d + y1 * (I * d))) (o + (x2 * d + y2 * (I * d))) (o + (x3 * d + y3 * (I * d))) =
      (x2 - x1) * (y3 - y1) - (y2 - y1) * (x3 - x1) := by
  unfold areaC
  simp only [add_re, add_im, mul_re, mul_im, ofReal_re, ofReal_im, I_re, I_im]
  linear_combination ((x2 - x1) * (y3 - y1) - (y2 - y1) * (x3 - x1)) * hd

/-- The area spanned by two vectors, the second given in the frame of the first. -/
theorem areaC_turn (c a : ℂ) (θ : ℝ) : areaC c (c + a) (c + a * exp (θ * I)) = (a.re * a.re + a.im * a.im) * Real.sin θ := by
  rw [← polar]
  unfold areaC
  simp only [add_re, add_im, mul_re, mul_im]
  ring

theorem norm_frame {d : ℂ} (hd : d.re * d.re + d.im * d.im = 1) (x y : ℝ) : ‖x * d + y * (I * d)‖ = Real.sqrt (x * x + y * y) := by
  rw [Complex.norm_def, Complex.normSq_apply]
  congr 1
  simp only [add_re, add_im, mul_re, mul_im, ofReal_re, ofReal_im, I_re, I_im]
  linear_combination (x * x + y * y) * hd

theorem unit_mul_exp {d : ℂ} (hd : d.re * d.re + d.im * d.im = 1) (θ : ℝ) :
    (d * exp (θ * I)).re * (d * exp (θ * I)).re + (d * exp (θ * I)).im * (d * exp (θ * I)).im = 1 := by
  rw [← polar]
  simp only [mul_re, mul_im]
  have := Real.sin_sq_add_cos_sq θ
  linear_combination (Real.sin θ ^ 2 + Real.cos θ ^ 2) * hd + this

/-! ### lists with given ends -/

theorem mid_of_ends {α : Type} {l : List α} {a b : α} (h : 2 ≤ l.length) (ha : l.head? = some a) (hb : l.getLast? = some b) :
    ∃ m, l = a :: m ++ [b] := by
  cases l with
  | nil => simp at h
  | cons x l =>
    simp only [List.head?_cons, Option.some.injEq] at ha
    subst ha
    have hl : l ≠ [] := by rintro rfl; simp at h
    refine ⟨l.dropLast, ?_⟩
    have := List.dropLast_append_getLast hl
    rw [List.getLast?_eq_getLast_of_ne_nil (by simp), List.getLast_cons hl, Option.some.injEq] at hb
    rw [← hb, List.cons_append, this]

/-- What is needed of the outer side of a corner or of a cap: its ends, that it runs counterclockwise around `v`, and its reach. -/
structure ArcAround (v p q : ℂ) (R : ℝ) (arc : List ℂ) : Prop where
  ends : ∃ m, arc = p :: m ++ [q]
  ccw : arc.IsChain fun a b => 0 ≤ areaC v a b
  near : ∀ a ∈ arc, ‖a - v‖ ≤ R

theorem arcPoints_around {v p : ℂ} {φ R : ℝ} {n : Nat} (h0 : 0 ≤ φ) (h1 : φ ≤ Real.pi) (hn : 1 ≤ n) (hR : ‖p‖ ≤ R) :
    ArcAround v (v + p) (v + p * exp (φ * I)) R (arcPoints v p φ n) := by
  have hn' : ((n : ℕ) : ℝ) ≠ 0 := by positivity
  have hn1 : (1 : ℝ) ≤ n := by exact_mod_cast hn
  refine ⟨mid_of_ends ?_ ?_ ?_, ?_, ?_⟩
  · simp [arcPoints]; omega
  · simp only [arcPoints, List.range_succ_eq_map, List.map_cons, List.head?_cons]
    simp
  · simp only [arcPoints, List.range_succ, List.map_append, List.map_cons, List.map_nil, List.getLast?_concat]
    rw [div_mul_cancel₀ _ hn']
  · rw [List.isChain_iff_getElem]
    intro i hi
    simp only [arcPoints, List.getElem_map, List.getElem_range]
    have e : p * exp ((φ / n * ((i + 1 : ℕ) : ℝ) : ℝ) * I) = p * exp ((φ / n * (i : ℝ) : ℝ) * I) * exp ((φ / n : ℝ) * I) := by
      rw [mul_assoc, ← Complex.exp_add]
      congr 2
      push_cast; ring
    rw [e, areaC_turn]
    refine mul_nonneg (add_nonneg (mul_self_nonneg _) (mul_self_nonneg _)) (Real.sin_nonneg_of_nonneg_of_le_pi (by positivity) ?_)
    exact (div_le_self h0 hn1).trans h1
  · intro a ha
    simp only [arcPoints, List.mem_map] at ha
    obtain ⟨i, -, rfl⟩ := ha
    rw [add_sub_cancel_left, norm_mul, Complex.norm_exp_ofReal_mul_I, mul_one]
    exact hR

theorem ArcAround.pair {v p q : ℂ} {R : ℝ} (h : 0 ≤ areaC v p q) (hp : ‖p - v‖ ≤ R) (hq : ‖q - v‖ ≤ R) :
    ArcAround v p q R [p, q] := by
  refine ⟨⟨[], rfl⟩, by simpa using h, ?_⟩
  intro a ha
  simp only [List.mem_cons, List.not_mem_nil, or_false] at ha
  rcases ha with rfl | rfl <;> assumption

/-! ### corners -/

/-- The outer side of a corner in the frame of its first side: `E` is the direction in which the side ending at the corner point
`outerFrom` is prolonged. -/
theorem corner_frame (r : ℝ) {u v w : ℂ} (h1 : u ≠ v) (h2 : v ≠ w) :
    let φ := turnAngle (unitTo u v) (unitTo v w)
    ∃ E : ℂ, E.re * E.re + E.im * E.im = 1 ∧ outerFrom r u v w = v - I * E * r ∧ outerTo r u v w = v - I * (E * exp (φ * I)) * r ∧
      innerFrom r u v w = v + I * (E * exp (φ * I)) * r ∧ innerTo r u v w = v + I * E * r ∧
      (LeftTurn u v w → E = unitTo u v ∧ E * exp (φ * I) = unitTo v w) ∧
      (¬ LeftTurn u v w → E = -unitTo v w ∧ E * exp (φ * I) = -unitTo u v) := by
  intro φ
  have u0 := unitTo_unit h1
  have u1 := unitTo_unit h2
  unfold outerFrom outerTo innerFrom innerTo halfLeft
  by_cases hl : LeftTurn u v w
  · have ht : unitTo v w = unitTo u v * exp (φ * I) := turn_left u0 u1 ((leftTurn_iff h1 h2).1 hl)
    refine ⟨unitTo u v, u0, by rw [if_pos hl], by rw [if_pos hl, ← ht], by rw [if_pos hl, ← ht], by rw [if_pos hl],
      fun _ => ⟨rfl, ht.symm⟩, fun h => absurd hl h⟩
  · have ht : unitTo u v = unitTo v w * exp (φ * I) := turn_right u0 u1 (fun h => hl ((leftTurn_iff h1 h2).2 h))
    have e : -unitTo v w * exp (φ * I) = -unitTo u v := by rw [ht]; ring
    refine ⟨-unitTo v w, by simpa using u1, by rw [if_neg hl]; ring, ?_, ?_, by rw [if_neg hl]; ring,
      fun h => absurd h hl, fun _ => ⟨rfl, e⟩⟩
    · rw [if_neg hl, e]; ring
    · rw [if_neg hl, e]; ring

theorem joinArc_around {toInt : ℂ → Pt} (s : StrokeStyle) {u v w : ℂ} (h1 : u ≠ v) (h2 : v ≠ w) :
    ArcAround v (outerFrom s.radius u v w) (outerTo s.radius u v w) (s.join.reach s.radius) (joinArc toInt s u v w) := by
  classical
  obtain ⟨E, hE, ep, eq, -, -, hl, hr⟩ := corner_frame s.radius h1 h2
  set r := s.radius with hrdef
  have r0 : 0 ≤ r := radius_nonneg s
  set φ := turnAngle (unitTo u v) (unitTo v w) with hφ
  have hφ0 : 0 ≤ φ := Real.arccos_nonneg _
  have hφ1 : φ ≤ Real.pi := Real.arccos_le_pi _
  have hpi := Real.pi_pos
  have hR := join_reach_ge s.join r0
  set E' := E * exp (φ * I) with hE'
  have uE' : E'.re * E'.re + E'.im * E'.im = 1 := unit_mul_exp hE φ
  have nE : ∀ F : ℂ, F.re * F.re + F.im * F.im = 1 → ‖v - I * F * r - v‖ = r := by
    intro F hF
    have := norm_frame hF 0 (-r)
    rw [show v - I * F * r - v = ((0 : ℝ) : ℂ) * F + ((-r : ℝ) : ℂ) * (I * F) by push_cast; ring, this]
    rw [show (0 : ℝ) * 0 + -r * -r = r * r by ring]
    exact Real.sqrt_mul_self r0
  have hpq : 0 ≤ areaC v (v - I * E * r) (v - I * E' * r) := by
    have := areaC_turn v (-(I * E) * r) φ
    rw [show v + -(I * E) * r = v - I * E * r by ring, show v + -(I * E) * r * exp (φ * I) = v - I * E' * r by rw [hE']; ring] at this
    rw [this]
    exact mul_nonneg (add_nonneg (mul_self_nonneg _) (mul_self_nonneg _)) (Real.sin_nonneg_of_nonneg_of_le_pi hφ0 hφ1)
  have straight : ArcAround v (v - I * E * r) (v - I * E' * r) (s.join.reach r) [v - I * E * r, v - I * E' * r] :=
    .pair hpq ((nE E hE).le.trans hR) ((nE E' uE').le.trans hR)
  rw [ep, eq]
  cases hj : s.join with
  | bevel =>
    rw [hj] at straight
    unfold joinArc
    rw [hj]
    dsimp only
    rw [ep, eq]
    exact straight
  | round a =>
    rw [hj] at straight
    unfold joinArc
    rw [hj]
    dsimp only
    rw [← hrdef, ep, eq]
    set A := clampR a (0.01 * Real.pi) (0.25 * Real.pi)
    have hA1 : 0.01 * Real.pi ≤ A := le_max_left _ _
    have hA0 : 0 < A := by nlinarith
    split_ifs with hs
    · exact straight
    · have hn1 : 1 ≤ ⌊φ / A + 1 / 2⌋₊ := by
        have hx : 1 ≤ φ / A := by rw [le_div_iff₀ hA0]; linarith
        exact Nat.le_floor (by push_cast; linarith)
      have := arcPoints_around (v := v) (p := v - I * E * r - v) (R := r) hφ0 hφ1 hn1 (nE E hE).le
      rw [show v + (v - I * E * r - v) = v - I * E * r by ring,
        show v + (v - I * E * r - v) * exp (φ * I) = v - I * E' * r by rw [hE']; ring] at this
      exact this
  | miter a =>
    rw [hj] at straight
    unfold joinArc
    rw [hj]
    dsimp only
    have ee : (if LeftTurn u v w then unitTo u v else -unitTo v w) = E := by
      split_ifs with h
      · exact (hl h).1.symm
      · exact (hr h).1.symm
    have ee' : (if LeftTurn u v w then unitTo v w else -unitTo u v) = E' := by
      split_ifs with h
      · exact (hl h).2.symm
      · exact (hr h).2.symm
    rw [← hrdef, ep, eq, ee, ee']
    obtain ⟨p0, p1, -⟩ := miter_angle a
    set A := clampR a (0.01 * Real.pi) (0.99 * Real.pi) with hAdef
    have hreach : (LineJoin.miter a).reach r = r / Real.sin (A / 2) := rfl
    have sA : 0 < Real.sin (A / 2) := Real.sin_pos_of_pos_of_lt_pi (by linarith) (by linarith)
    have cA : 0 < Real.cos (A / 2) := Real.cos_pos_of_mem_Ioo ⟨by linarith, by linarith⟩
    -- areas and distances of points of the prolonged sides
    have fp : ∀ t : ℝ, v - I * E * r + E * t = v + ((t : ℂ) * E + ((-r : ℝ) : ℂ) * (I * E)) := by intro t; push_cast; ring
    have fq : ∀ t : ℝ, v - I * E' * r - E' * t = v + (((-t : ℝ) : ℂ) * E' + ((-r : ℝ) : ℂ) * (I * E')) := by
      intro t; push_cast; ring
    have a1 : ∀ t : ℝ, 0 ≤ t → 0 ≤ areaC v (v - I * E * r) (v - I * E * r + E * t) := by
      intro t ht
      have := areaC_frame hE v 0 0 0 (-r) t (-r)
      rw [show v + (((0 : ℝ) : ℂ) * E + ((0 : ℝ) : ℂ) * (I * E)) = v by push_cast; ring,
        show v + (((0 : ℝ) : ℂ) * E + ((-r : ℝ) : ℂ) * (I * E)) = v - I * E * r by push_cast; ring, ← fp] at this
      rw [this]
      nlinarith
    have a2 : ∀ t : ℝ, 0 ≤ t → 0 ≤ areaC v (v - I * E' * r - E' * t) (v - I * E' * r) := by
      intro t ht
      have := areaC_frame uE' v 0 0 (-t) (-r) 0 (-r)
      rw [show v + (((0 : ℝ) : ℂ) * E' + ((0 : ℝ) : ℂ) * (I * E')) = v by push_cast; ring,
        show v + (((0 : ℝ) : ℂ) * E' + ((-r : ℝ) : ℂ) * (I * E')) = v - I * E' * r by push_cast; ring, ← fq] at this
      rw [this]
      nlinarith
    have n1 : ∀ t : ℝ, ‖v - I * E * r + E * t - v‖ = Real.sqrt (t * t + r * r) := by
      intro t
      rw [fp, add_sub_cancel_left, norm_frame hE]
      congr 1; ring
    have n2 : ∀ t : ℝ, ‖v - I * E' * r - E' * t - v‖ = Real.sqrt (t * t + r * r) := by
      intro t
      rw [fq, add_sub_cancel_left, norm_frame uE']
      congr 1; ring
    rw [hreach] at straight ⊢
    have hlim : Real.sqrt (r / Real.tan (A / 2) * (r / Real.tan (A / 2)) + r * r) = r / Real.sin (A / 2) := by
      have e2 : r / Real.tan (A / 2) * (r / Real.tan (A / 2)) + r * r = (r / Real.sin (A / 2)) ^ 2 := by
        rw [Real.tan_eq_sin_div_cos]
        have := Real.sin_sq_add_cos_sq (A / 2)
        field_simp
        nlinarith
      rw [e2, Real.sqrt_sq (by positivity)]
    split_ifs with c1 c2 c3
    · exact straight
    · -- limited
      have hm : 0 ≤ r / Real.tan (A / 2) := by rw [Real.tan_eq_sin_div_cos]; positivity
      have hmid : 0 ≤ areaC v (v - I * E * r + E * (r / Real.tan (A / 2) : ℝ)) (v - I * E' * r - E' * (r / Real.tan (A / 2) : ℝ)) := by
        have e1 : v - I * E' * r - E' * (r / Real.tan (A / 2) : ℝ) =
            v + (((-(r / Real.tan (A / 2)) * Real.cos φ + r * Real.sin φ : ℝ) : ℂ) * E +
              ((-(r / Real.tan (A / 2)) * Real.sin φ - r * Real.cos φ : ℝ) : ℂ) * (I * E)) := by
          rw [hE', ← polar]
          apply Complex.ext
          · simp only [add_re, sub_re, mul_re, mul_im, ofReal_re, ofReal_im, I_re, I_im]; ring
          · simp only [add_im, sub_im, mul_re, mul_im, ofReal_re, ofReal_im, I_re, I_im]; ring
        have := areaC_frame hE v 0 0 (r / Real.tan (A / 2)) (-r)
          (-(r / Real.tan (A / 2)) * Real.cos φ + r * Real.sin φ) (-(r / Real.tan (A / 2)) * Real.sin φ - r * Real.cos φ)
        rw [show v + (((0 : ℝ) : ℂ) * E + ((0 : ℝ) : ℂ) * (I * E)) = v by push_cast; ring, ← fp, ← e1] at this
        rw [this]
        have hsin : Real.sin (A + φ) ≤ 0 := by
          have h3 := Real.sin_nonneg_of_nonneg_of_le_pi (x := A + φ - Real.pi) (by linarith) (by linarith)
          rw [Real.sin_sub_pi] at h3
          linarith
        have e4 : (r / Real.tan (A / 2) - 0) * (-(r / Real.tan (A / 2)) * Real.sin φ - r * Real.cos φ - 0) -
            (-r - 0) * (-(r / Real.tan (A / 2)) * Real.cos φ + r * Real.sin φ - 0) =
            (r / Real.sin (A / 2)) ^ 2 * (-Real.sin (A + φ)) := by
          have s2 : Real.sin A = 2 * Real.sin (A / 2) * Real.cos (A / 2) := by rw [← Real.sin_two_mul]; congr 1; ring
          have c2 : Real.cos A = Real.cos (A / 2) ^ 2 - Real.sin (A / 2) ^ 2 := by
            rw [← Real.cos_two_mul']; congr 1; ring
          rw [Real.sin_add, s2, c2, Real.tan_eq_sin_div_cos]
          field_simp
          ring
        rw [e4]
        exact mul_nonneg (by positivity) (by linarith)
      refine ⟨⟨[_, _], rfl⟩, ?_, ?_⟩
      · simp only [List.isChain_cons_cons, List.isChain_singleton, and_true]
        exact ⟨a1 _ hm, hmid, a2 _ hm⟩
      · intro x hx
        simp only [List.mem_cons, List.not_mem_nil, or_false] at hx
        rcases hx with rfl | rfl | rfl | rfl
        · exact straight.near _ (by simp)
        · rw [n1, hlim]
        · rw [n2, hlim]
        · exact straight.near _ (by simp)
    · exact straight
    · -- tip
      have hφ2 : φ / 2 ≤ Real.pi / 2 - A / 2 := by linarith
      have cφ : Real.sin (A / 2) ≤ Real.cos (φ / 2) := by
        rw [← Real.cos_pi_div_two_sub]
        exact Real.cos_le_cos_of_nonneg_of_le_pi (by linarith) (by linarith) hφ2
      have cφ0 : 0 < Real.cos (φ / 2) := sA.trans_le cφ
      have sφ0 : 0 ≤ Real.sin (φ / 2) := Real.sin_nonneg_of_nonneg_of_le_pi (by linarith) (by linarith)
      have ht : 0 ≤ r * Real.tan (φ / 2) := by rw [Real.tan_eq_sin_div_cos]; positivity
      have s2 : Real.sin φ = 2 * Real.sin (φ / 2) * Real.cos (φ / 2) := by rw [← Real.sin_two_mul]; congr 1; ring
      have c2 : Real.cos φ = 2 * Real.cos (φ / 2) ^ 2 - 1 := by rw [← Real.cos_two_mul]; congr 1; ring
      have etip : v - I * E * r + E * (r * Real.tan (φ / 2) : ℝ) = v - I * E' * r - E' * (r * Real.tan (φ / 2) : ℝ) := by
        have key : (-I * r + (r * Real.tan (φ / 2) : ℝ) : ℂ) = exp (φ * I) * (-I * r - (r * Real.tan (φ / 2) : ℝ)) := by
          have hT : r * Real.tan (φ / 2) * Real.cos (φ / 2) = r * Real.sin (φ / 2) := by
            rw [Real.tan_eq_sin_div_cos]; field_simp
          generalize r * Real.tan (φ / 2) = T at hT ⊢
          rw [← polar]
          have sc := Real.sin_sq_add_cos_sq (φ / 2)
          apply Complex.ext
          · simp only [add_re, sub_re, sub_im, mul_re, mul_im, neg_re, neg_im, ofReal_re, ofReal_im, I_re, I_im]
            rw [s2, c2]
            linear_combination (2 * Real.cos (φ / 2)) * hT
          · simp only [add_im, sub_im, sub_re, mul_re, mul_im, neg_re, neg_im, ofReal_re, ofReal_im, I_re, I_im]
            rw [s2, c2]
            linear_combination (2 * Real.sin (φ / 2)) * hT + (2 * r) * sc
        rw [hE']
        linear_combination E * key
      refine ⟨⟨[_], rfl⟩, ?_, ?_⟩
      · simp only [List.isChain_cons_cons, List.isChain_singleton, and_true]
        refine ⟨a1 _ ht, ?_⟩
        rw [etip]
        exact a2 _ ht
      · intro x hx
        simp only [List.mem_cons, List.not_mem_nil, or_false] at hx
        rcases hx with rfl | rfl | rfl
        · exact straight.near _ (by simp)
        · rw [n1]
          have e2 : r * Real.tan (φ / 2) * (r * Real.tan (φ / 2)) + r * r = (r / Real.cos (φ / 2)) ^ 2 := by
            rw [Real.tan_eq_sin_div_cos]
            have := Real.sin_sq_add_cos_sq (φ / 2)
            field_simp
            nlinarith
          rw [e2, Real.sqrt_sq (by positivity)]
          gcongr
        · exact straight.near _ (by simp)

/-! ### caps -/

theorem capShape_around {r : ℝ} (r0 : 0 ≤ r) {cap : LineCap} (hc : cap.Standard) (v : ℂ) {d : ℂ}
    (hd : d.re * d.re + d.im * d.im = 1) :
    ArcAround v (v - I * d * r) (v + I * d * r) (cap.reach r) (capShape r cap v d) := by
  have f : ∀ x y : ℝ, ‖v + ((x : ℂ) * d + (y : ℂ) * (I * d)) - v‖ = Real.sqrt (x * x + y * y) := by
    intro x y; rw [add_sub_cancel_left, norm_frame hd]
  have f0 : v + (((0 : ℝ) : ℂ) * d + ((0 : ℝ) : ℂ) * (I * d)) = v := by push_cast; ring
  have f1 : v - I * d * r = v + (((0 : ℝ) : ℂ) * d + ((-r : ℝ) : ℂ) * (I * d)) := by push_cast; ring
  have f2 : v + I * d * r = v + (((0 : ℝ) : ℂ) * d + ((r : ℝ) : ℂ) * (I * d)) := by push_cast; ring
  have f3 : v - I * d * r + d * r = v + ((r : ℂ) * d + ((-r : ℝ) : ℂ) * (I * d)) := by push_cast; ring
  have f4 : v + I * d * r + d * r = v + ((r : ℂ) * d + ((r : ℝ) : ℂ) * (I * d)) := by push_cast; ring
  have m1 : ‖v - I * d * r - v‖ = r := by
    rw [f1, f, show (0 : ℝ) * 0 + -r * -r = r * r by ring]; exact Real.sqrt_mul_self r0
  have m2 : ‖v + I * d * r - v‖ = r := by
    rw [f2, f, show (0 : ℝ) * 0 + r * r = r * r by ring]; exact Real.sqrt_mul_self r0
  have area : ∀ x2 y2 x3 y3 : ℝ, areaC v (v + ((x2 : ℂ) * d + (y2 : ℂ) * (I * d))) (v + ((x3 : ℂ) * d + (y3 : ℂ) * (I * d))) =
      x2 * y3 - y2 * x3 := by
    intro x2 y2 x3 y3
    have := areaC_frame hd v 0 0 x2 y2 x3 y3
    rw [f0] at this
    rw [this]; ring
  cases cap with
  | custom ps => exact absurd hc id
  | butt =>
    refine .pair ?_ m1.le m2.le
    rw [f1, f2, area]; simp
  | round a =>
    have hpi := Real.pi_pos
    have hn : 1 ≤ ⌊Real.pi / clampR a (0.01 * Real.pi) (0.25 * Real.pi)⌋₊ := by
      have := capSteps_range a
      omega
    have := arcPoints_around (v := v) (p := -(I * d) * r) (φ := Real.pi) (R := r) hpi.le le_rfl hn (by
      have := m1
      rw [show v - I * d * r - v = -(I * d) * r by ring] at this
      exact this.le)
    rw [exp_pi_mul_I, show v + -(I * d) * r = v - I * d * r by ring,
      show v + -(I * d) * r * -1 = v + I * d * r by ring] at this
    exact this
  | square =>
    have hs : LineCap.reach r .square = Real.sqrt 2 * r := rfl
    have h1 : (1 : ℝ) ≤ Real.sqrt 2 := by rw [Real.one_le_sqrt]; norm_num
    have hr : r ≤ Real.sqrt 2 * r := by nlinarith
    have hc : Real.sqrt (r * r + r * r) = Real.sqrt 2 * r := by
      rw [show r * r + r * r = 2 * (r * r) by ring, Real.sqrt_mul (by norm_num), Real.sqrt_mul_self r0]
    rw [hs]
    refine ⟨⟨[_, _], rfl⟩, ?_, ?_⟩
    · simp only [capShape, List.isChain_cons_cons, List.isChain_singleton, and_true]
      rw [f3, f4, f1, f2, area, area, area]
      exact ⟨by nlinarith, by nlinarith, by nlinarith⟩
    · intro x hx
      simp only [capShape, List.mem_cons, List.not_mem_nil, or_false] at hx
      rcases hx with rfl | rfl | rfl | rfl
      · rw [m1]; exact hr
      · rw [f3, f, show r * r + -r * -r = r * r + r * r by ring, hc]
      · rw [f4, f, hc]
      · rw [m2]; exact hr

end IOverlay
