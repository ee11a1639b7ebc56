/-
Rectangles, inner triangles and caps of a stroke: winding numbers and their order (proofs for C76).
-/
import Verif.StrokeCover

namespace IOverlay
open Complex

/-! ### rectangles cut at a point -/

theorem windC_three (a b c z : ℂ) : polyWindC [a, b, c] z = edgeWindC a b z + edgeWindC b c z + edgeWindC c a z := by
  rw [polyWindC_eq, cycSum_cons]
  simp only [List.cons_append, List.nil_append, chainSum]
  ring

theorem windC_four (a b c d z : ℂ) :
    polyWindC [a, b, c, d] z = edgeWindC a b z + edgeWindC b c z + edgeWindC c d z + edgeWindC d a z := by
  rw [polyWindC_eq, cycSum_cons]
  simp only [List.cons_append, List.nil_append, chainSum]
  ring

/-- A point `P` that sees the corners of a quadrilateral in order, and a point `M` of its last side: the quadrilateral winds at
least as often as either of the triangles of `P`, `M` and an end of this side. -/
theorem notch {Q0 Q1 Q2 Q3 M P : ℂ} (h1 : 0 ≤ areaC P Q0 Q1) (h2 : 0 ≤ areaC P Q1 Q2) (h3 : 0 ≤ areaC P Q2 Q3)
    (h4 : 0 ≤ areaC P Q3 M) (h5 : 0 ≤ areaC P M Q0) (hM : areaC Q3 M Q0 = 0) (z : ℂ) :
    polyWindC [P, Q3, M] z ≤ polyWindC [Q0, Q1, Q2, Q3] z ∧ polyWindC [P, M, Q0] z ≤ polyWindC [Q0, Q1, Q2, Q3] z := by
  rw [windC_three, windC_three, windC_four]
  have t1 := triWind_nonneg h1 z
  have t2 := triWind_nonneg h2 z
  have t3 := triWind_nonneg h3 z
  have t4 := triWind_nonneg h4 z
  have t5 := triWind_nonneg h5 z
  have l := edgeWindC_line hM z
  have s0 := edgeWindC_swap P Q0 z
  have s1 := edgeWindC_swap P Q1 z
  have s2 := edgeWindC_swap P Q2 z
  have s3 := edgeWindC_swap P Q3 z
  have s4 := edgeWindC_swap P M z
  constructor <;> omega

theorem unitTo_reach {u v : ℂ} (h : u ≠ v) : v - u = unitTo u v * (‖v - u‖ : ℝ) := by
  have : ((‖v - u‖ : ℝ) : ℂ) ≠ 0 := by
    rw [ne_eq, ofReal_eq_zero, norm_eq_zero]
    exact _root_.sub_ne_zero.2 h.symm
  unfold unitTo
  rw [div_mul_cancel₀ _ this]

section
variable {r : ℝ} {u v : ℂ}

theorem rect_notch_end (h : u ≠ v) {x y : ℝ} (x0 : -‖v - u‖ ≤ x) (x1 : x ≤ 0) (y0 : -r ≤ y) (y1 : y ≤ r) (z : ℂ) :
    let P := v + (x * unitTo u v + y * (I * unitTo u v))
    polyWindC [P, v - halfLeft r u v, v] z ≤ polyWindC (sectionRect r u v) z ∧
    polyWindC [P, v, v + halfLeft r u v] z ≤ polyWindC (sectionRect r u v) z := by
  intro P
  have hd := unitTo_unit h
  have hv := unitTo_reach h
  set d := unitTo u v with hdd
  set L := ‖v - u‖ with hL
  have L0 : 0 ≤ L := norm_nonneg _
  have eh : halfLeft r u v = I * d * r := rfl
  have f0 : v = v + (((0 : ℝ) : ℂ) * d + ((0 : ℝ) : ℂ) * (I * d)) := by push_cast; ring
  have q0 : u - halfLeft r u v = v + (((-L : ℝ) : ℂ) * d + ((-r : ℝ) : ℂ) * (I * d)) := by
    rw [eh]; push_cast; linear_combination -hv
  have q1 : v - halfLeft r u v = v + (((0 : ℝ) : ℂ) * d + ((-r : ℝ) : ℂ) * (I * d)) := by rw [eh]; push_cast; ring
  have q2 : v + halfLeft r u v = v + (((0 : ℝ) : ℂ) * d + ((r : ℝ) : ℂ) * (I * d)) := by rw [eh]; push_cast; ring
  have q3 : u + halfLeft r u v = v + (((-L : ℝ) : ℂ) * d + ((r : ℝ) : ℂ) * (I * d)) := by
    rw [eh]; push_cast; linear_combination -hv
  have key := notch (Q0 := v + halfLeft r u v) (Q1 := u + halfLeft r u v) (Q2 := u - halfLeft r u v) (Q3 := v - halfLeft r u v)
    (M := v) (P := P)
    (by rw [q2, q3, areaC_frame hd]; nlinarith) (by rw [q0, q3, areaC_frame hd]; nlinarith)
    (by rw [q0, q1, areaC_frame hd]; nlinarith)
    (by
      have := areaC_frame hd v x y 0 (-r) 0 0
      rw [← q1, ← f0] at this
      rw [this]; nlinarith)
    (by
      have := areaC_frame hd v x y 0 0 0 r
      rw [← q2, ← f0] at this
      rw [this]; nlinarith)
    (by
      have := areaC_frame hd v 0 (-r) 0 0 0 r
      rw [← q2, ← q1, ← f0] at this
      rw [this]; ring) z
  have e : polyWindC [v + halfLeft r u v, u + halfLeft r u v, u - halfLeft r u v, v - halfLeft r u v] z =
      polyWindC (sectionRect r u v) z := by
    unfold sectionRect
    rw [windC_four, windC_four]; ring
  rw [e] at key
  exact key

theorem rect_notch_start (h : u ≠ v) {x y : ℝ} (x0 : 0 ≤ x) (x1 : x ≤ ‖v - u‖) (y0 : -r ≤ y) (y1 : y ≤ r) (z : ℂ) :
    let P := u + (x * unitTo u v + y * (I * unitTo u v))
    polyWindC [P, u + halfLeft r u v, u] z ≤ polyWindC (sectionRect r u v) z ∧
    polyWindC [P, u, u - halfLeft r u v] z ≤ polyWindC (sectionRect r u v) z := by
  intro P
  have hd := unitTo_unit h
  have hv := unitTo_reach h
  set d := unitTo u v with hdd
  set L := ‖v - u‖ with hL
  have L0 : 0 ≤ L := norm_nonneg _
  have eh : halfLeft r u v = I * d * r := rfl
  have f0 : u = u + (((0 : ℝ) : ℂ) * d + ((0 : ℝ) : ℂ) * (I * d)) := by push_cast; ring
  have q0 : u - halfLeft r u v = u + (((0 : ℝ) : ℂ) * d + ((-r : ℝ) : ℂ) * (I * d)) := by rw [eh]; push_cast; ring
  have q1 : v - halfLeft r u v = u + ((L : ℂ) * d + ((-r : ℝ) : ℂ) * (I * d)) := by
    rw [eh]; push_cast; linear_combination hv
  have q2 : v + halfLeft r u v = u + ((L : ℂ) * d + ((r : ℝ) : ℂ) * (I * d)) := by
    rw [eh]; push_cast; linear_combination hv
  have q3 : u + halfLeft r u v = u + (((0 : ℝ) : ℂ) * d + ((r : ℝ) : ℂ) * (I * d)) := by rw [eh]; push_cast; ring
  exact notch (Q0 := u - halfLeft r u v) (Q1 := v - halfLeft r u v) (Q2 := v + halfLeft r u v) (Q3 := u + halfLeft r u v)
    (M := u) (P := P)
    (by rw [q0, q1, areaC_frame hd]; nlinarith) (by rw [q1, q2, areaC_frame hd]; nlinarith)
    (by rw [q2, q3, areaC_frame hd]; nlinarith)
    (by
      have := areaC_frame hd u x y 0 r 0 0
      rw [← q3, ← f0] at this
      rw [this]; nlinarith)
    (by
      have := areaC_frame hd u x y 0 0 0 (-r)
      rw [← q0, ← f0] at this
      rw [this]; nlinarith)
    (by
      have := areaC_frame hd u 0 r 0 0 0 (-r)
      rw [← q0, ← q3, ← f0] at this
      rw [this]; ring) z

theorem rect_nonneg (r0 : 0 ≤ r) (h : u ≠ v) (z : ℂ) : 0 ≤ polyWindC (sectionRect r u v) z := by
  have hd := unitTo_unit h
  have hv := unitTo_reach h
  set d := unitTo u v with hdd
  set L := ‖v - u‖ with hL
  have L0 : 0 ≤ L := norm_nonneg _
  have eh : halfLeft r u v = I * d * r := rfl
  have q0 : u - halfLeft r u v = u + (((0 : ℝ) : ℂ) * d + ((-r : ℝ) : ℂ) * (I * d)) := by rw [eh]; push_cast; ring
  have q1 : v - halfLeft r u v = u + ((L : ℂ) * d + ((-r : ℝ) : ℂ) * (I * d)) := by
    rw [eh]; push_cast; linear_combination hv
  have q2 : v + halfLeft r u v = u + ((L : ℂ) * d + ((r : ℝ) : ℂ) * (I * d)) := by
    rw [eh]; push_cast; linear_combination hv
  have q3 : u + halfLeft r u v = u + (((0 : ℝ) : ℂ) * d + ((r : ℝ) : ℂ) * (I * d)) := by rw [eh]; push_cast; ring
  unfold sectionRect
  refine fan_nonneg ?_ z
  simp only [List.isChain_cons_cons, List.isChain_singleton, and_true]
  constructor
  · rw [q0, q1, q2, areaC_frame hd]; nlinarith
  · rw [q0, q2, q3, areaC_frame hd]; nlinarith

end

/-! ### inner triangles -/

/-- The sine of the turn, positive to the left. -/
noncomputable def turnSin (u v w : ℂ) : ℝ := (unitTo u v).re * (unitTo v w).im - (unitTo u v).im * (unitTo v w).re

/-- Its cosine. -/
noncomputable def turnCos (u v w : ℂ) : ℝ := (unitTo u v).re * (unitTo v w).re + (unitTo u v).im * (unitTo v w).im

/-- The winding number of the inner triangle of a corner. -/
noncomputable def innerWind (r : ℝ) (u v w z : ℂ) : Int := polyWindC [v, innerTo r u v w, innerFrom r u v w] z

theorem innerWind_neg (r : ℝ) (u v w z : ℂ) : polyWindC [v, innerFrom r u v w, innerTo r u v w] z = - innerWind r u v w z := by
  unfold innerWind
  rw [windC_three, windC_three]
  have s0 := edgeWindC_swap v (innerFrom r u v w) z
  have s1 := edgeWindC_swap v (innerTo r u v w) z
  have s2 := edgeWindC_swap (innerFrom r u v w) (innerTo r u v w) z
  omega

section
variable {r : ℝ} {u v w : ℂ}

theorem unitTo_next (h1 : u ≠ v) : unitTo v w = (turnCos u v w : ℝ) * unitTo u v + (turnSin u v w : ℝ) * (I * unitTo u v) := by
  have hd := unitTo_unit h1
  unfold turnCos turnSin
  apply Complex.ext
  · simp only [add_re, mul_re, mul_im, ofReal_re, ofReal_im, I_re, I_im]
    linear_combination (-(unitTo v w).re) * hd
  · simp only [add_im, mul_re, mul_im, ofReal_re, ofReal_im, I_re, I_im]
    linear_combination (-(unitTo v w).im) * hd

theorem unitTo_prev (h2 : v ≠ w) : unitTo u v = (turnCos u v w : ℝ) * unitTo v w + (-turnSin u v w : ℝ) * (I * unitTo v w) := by
  have hd := unitTo_unit h2
  unfold turnCos turnSin
  apply Complex.ext
  · simp only [add_re, mul_re, mul_im, ofReal_re, ofReal_im, I_re, I_im]
    linear_combination (-(unitTo u v).re) * hd
  · simp only [add_im, mul_re, mul_im, ofReal_re, ofReal_im, I_re, I_im]
    linear_combination (-(unitTo u v).im) * hd

/-- The inner triangle winds nonnegatively, and less often than the two rectangles it lies in. -/
theorem inner_le (r0 : 0 ≤ r) (h1 : u ≠ v) (h2 : v ≠ w) (l1 : r * |turnSin u v w| ≤ ‖v - u‖) (l2 : r * |turnSin u v w| ≤ ‖w - v‖)
    (z : ℂ) : 0 ≤ innerWind r u v w z ∧ innerWind r u v w z ≤ polyWindC (sectionRect r u v) z ∧
      innerWind r u v w z ≤ polyWindC (sectionRect r v w) z := by
  have hd0 := unitTo_unit h1
  obtain ⟨c0, c1⟩ := dot_range hd0 (unitTo_unit h2)
  change -1 ≤ turnCos u v w at c0
  change turnCos u v w ≤ 1 at c1
  have n1 := unitTo_next (w := w) h1
  have n2 := unitTo_prev (u := u) h2
  have hs : LeftTurn u v w ↔ 0 < turnSin u v w := leftTurn_iff h1 h2
  have hI := Complex.I_mul_I
  set C := turnCos u v w
  set S := turnSin u v w
  set d := unitTo u v with hdd
  set e := unitTo v w with hee
  have eh0 : halfLeft r u v = I * d * r := rfl
  have eh1 : halfLeft r v w = I * e * r := rfl
  have rot : ∀ a b c : ℂ, polyWindC [a, b, c] z = polyWindC [b, c, a] z := by
    intro a b c; rw [windC_three, windC_three]; ring
  have rC0 : -r ≤ r * C := by nlinarith
  have rC1 : r * C ≤ r := by nlinarith
  have f0 : v = v + (((0 : ℝ) : ℂ) * d + ((0 : ℝ) : ℂ) * (I * d)) := by push_cast; ring
  have p0 : ∀ t : ℝ, v + I * d * t = v + (((0 : ℝ) : ℂ) * d + (t : ℂ) * (I * d)) := by intro t; push_cast; ring
  have p1 : ∀ t : ℝ, v + I * e * t = v + (((-(t * S) : ℝ) : ℂ) * d + ((t * C : ℝ) : ℂ) * (I * d)) := by
    intro t; rw [n1]; push_cast; linear_combination (t * S * d) * hI
  have p2 : ∀ t : ℝ, v + I * d * t = v + (((t * S : ℝ) : ℂ) * e + ((t * C : ℝ) : ℂ) * (I * e)) := by
    intro t; rw [n2]; push_cast; linear_combination (-(t * S * e)) * hI
  have neg : ∀ x : ℂ, v - I * x * r = v + I * x * ((-r : ℝ) : ℂ) := by intro x; push_cast; ring
  unfold innerWind innerTo innerFrom
  by_cases hl : LeftTurn u v w
  · simp only [if_pos hl]
    have sp := hs.1 hl
    rw [abs_of_pos sp] at l1 l2
    refine ⟨?_, ?_, ?_⟩
    · rw [windC_three]
      refine triWind_nonneg ?_ z
      have := areaC_frame hd0 v 0 0 0 r (-(r * S)) (r * C)
      rw [← f0, ← p0, ← p1] at this
      rw [eh0, eh1, this]
      nlinarith [mul_nonneg (mul_nonneg r0 r0) sp.le]
    · rw [rot, rot, eh1, p1]
      exact (rect_notch_end h1 (by linarith) (by nlinarith) rC0 rC1 z).2
    · rw [rot, eh0, p2]
      exact (rect_notch_start h2 (by nlinarith) l2 rC0 rC1 z).1
  · simp only [if_neg hl]
    have sp : S ≤ 0 := not_lt.1 fun h => hl (hs.2 h)
    rw [abs_of_nonpos sp] at l1 l2
    refine ⟨?_, ?_, ?_⟩
    · rw [windC_three]
      refine triWind_nonneg ?_ z
      have := areaC_frame hd0 v 0 0 (-(-r * S)) (-r * C) 0 (-r)
      rw [← f0, ← p0, ← p1] at this
      rw [eh0, eh1, neg, neg, this]
      nlinarith [mul_nonneg (mul_nonneg r0 r0) (neg_nonneg.2 sp)]
    · rw [rot, eh1, neg, p1]
      exact (rect_notch_end h1 (by linarith) (by nlinarith) (by linarith) (by linarith) z).1
    · rw [rot, rot, eh0, neg, p2]
      exact (rect_notch_start h2 (by nlinarith) (by linarith) (by linarith) (by linarith) z).2

/-- How far along the section a point lies. -/
noncomputable def along (u v z : ℂ) : ℝ := (z.re - u.re) * (unitTo u v).re + (z.im - u.im) * (unitTo u v).im

theorem convex_halfplane (a b k : ℝ) : Convex ℝ {y : ℂ | y.re * a + y.im * b ≤ k} := by
  intro x hx y hy s t hs ht hst
  simp only [Set.mem_setOf_eq, add_re, add_im, smul_re, smul_im, smul_eq_mul] at hx hy ⊢
  have h1 := mul_le_mul_of_nonneg_left hx hs
  have h2 := mul_le_mul_of_nonneg_left hy ht
  have : s * k + t * k = k := by rw [← add_mul, hst, one_mul]
  linarith

/-- A point of the inner triangle is closer to the start of the second section than to that of the first. -/
theorem inner_along (h1 : u ≠ v) (h2 : v ≠ w) (l1 : r * |turnSin u v w| < ‖v - u‖) (r0 : 0 ≤ r)
    {z : ℂ} (hz : innerWind r u v w z ≠ 0) : along v w z < along u v z := by
  have hd0 := unitTo_unit h1
  have n1 := unitTo_next (w := w) h1
  have hs : LeftTurn u v w ↔ 0 < turnSin u v w := leftTurn_iff h1 h2
  have hv := unitTo_reach h1
  have hSdef : turnSin u v w = (unitTo u v).re * (unitTo v w).im - (unitTo u v).im * (unitTo v w).re := rfl
  set S := turnSin u v w
  set C := turnCos u v w
  unfold along
  have hre : v.re - u.re = (unitTo u v).re * ‖v - u‖ := by
    have := congrArg Complex.re hv; simpa using this
  have him : v.im - u.im = (unitTo u v).im * ‖v - u‖ := by
    have := congrArg Complex.im hv; simpa using this
  set d := unitTo u v with hdd
  set e := unitTo v w with hee
  set L := ‖v - u‖
  by_contra hn
  apply hz
  have hK := convex_halfplane (e.re - d.re) (e.im - d.im) (r * |S| + v.re * (e.re - d.re) + v.im * (e.im - d.im))
  obtain ⟨f, hf⟩ := edgeWindC_convex hK (z := z) (by
    intro h
    simp only [Set.mem_setOf_eq] at h
    apply hn
    have e1 : v.re = u.re + d.re * L := by linarith
    have e2 : v.im = u.im + d.im * L := by linarith
    have : (v.re - u.re) * d.re + (v.im - u.im) * d.im = L := by
      rw [hre, him]; linear_combination L * hd0
    nlinarith)
  have r1 : ∀ t : ℝ, (v + I * d * t).re * (e.re - d.re) + (v + I * d * t).im * (e.im - d.im) =
      t * S + v.re * (e.re - d.re) + v.im * (e.im - d.im) := by
    intro t
    rw [hSdef]
    simp only [add_re, add_im, mul_re, mul_im, ofReal_re, ofReal_im, I_re, I_im]
    ring
  have r2 : ∀ t : ℝ, (v + I * e * t).re * (e.re - d.re) + (v + I * e * t).im * (e.im - d.im) =
      t * S + v.re * (e.re - d.re) + v.im * (e.im - d.im) := by
    intro t
    rw [hSdef]
    simp only [add_re, add_im, mul_re, mul_im, ofReal_re, ofReal_im, I_re, I_im]
    ring
  have m0 : v ∈ {y : ℂ | y.re * (e.re - d.re) + y.im * (e.im - d.im) ≤ r * |S| + v.re * (e.re - d.re) + v.im * (e.im - d.im)} := by
    simp only [Set.mem_setOf_eq]
    have := mul_nonneg r0 (abs_nonneg S)
    linarith
  have neg : ∀ x : ℂ, v - I * x * r = v + I * x * ((-r : ℝ) : ℂ) := by intro x; push_cast; ring
  have m1 : innerTo r u v w ∈ {y : ℂ | y.re * (e.re - d.re) + y.im * (e.im - d.im) ≤
      r * |S| + v.re * (e.re - d.re) + v.im * (e.im - d.im)} := by
    simp only [Set.mem_setOf_eq]
    unfold innerTo halfLeft
    split_ifs with hl
    · rw [r1, abs_of_pos (hs.1 hl)]
    · rw [neg, r2, abs_of_nonpos (not_lt.1 fun h => hl (hs.2 h))]; linarith
  have m2 : innerFrom r u v w ∈ {y : ℂ | y.re * (e.re - d.re) + y.im * (e.im - d.im) ≤
      r * |S| + v.re * (e.re - d.re) + v.im * (e.im - d.im)} := by
    simp only [Set.mem_setOf_eq]
    unfold innerFrom halfLeft
    split_ifs with hl
    · rw [r2, abs_of_pos (hs.1 hl)]
    · rw [neg, r1, abs_of_nonpos (not_lt.1 fun h => hl (hs.2 h))]; linarith
  unfold innerWind
  rw [windC_three, hf _ _ m0 m1, hf _ _ m1 m2, hf _ _ m2 m0]
  ring

end

end IOverlay
