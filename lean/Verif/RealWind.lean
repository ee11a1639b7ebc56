/-
Winding numbers of polygons with real vertices (points of the complex plane): used to say what a stroke consists of (C76).
-/
import Verif.StrokeRun
import Verif.FloatWind

namespace IOverlay
open Complex

/-! ### specification -/

/-- Twice the signed area of the triangle `u v z`: positive if `z` is to the left of the line from `u` to `v`. -/
def areaC (u v z : ℂ) : ℝ := (v.re - u.re) * (z.im - u.im) - (v.im - u.im) * (z.re - u.re)

/-- Contribution of the directed edge `u → v` to the winding number around `z`, as `edgeWind`. -/
noncomputable def edgeWindC (u v z : ℂ) : Int :=
  open Classical in
  if u.re ≤ z.re ∧ z.re < v.re ∧ 0 < areaC u v z then 1
  else if v.re ≤ z.re ∧ z.re < u.re ∧ 0 < areaC v u z then -1
  else 0

/-- Winding number around `z` of the closed polygon through `pts`. -/
noncomputable def polyWindC (pts : List ℂ) (z : ℂ) : Int := ((cycleEdges pts).map fun e => edgeWindC e.1 e.2 z).sum

/-! ### edges -/

theorem edgeWindC_swap (u v z : ℂ) : edgeWindC v u z = - edgeWindC u v z := by
  unfold edgeWindC
  by_cases h1 : u.re ≤ z.re ∧ z.re < v.re ∧ 0 < areaC u v z
  · rw [if_pos h1, if_neg (by intro h; linarith [h1.1, h.2.1]), if_pos h1]
  · by_cases h2 : v.re ≤ z.re ∧ z.re < u.re ∧ 0 < areaC v u z
    · rw [if_pos h2, if_neg h1, if_pos h2]; rfl
    · rw [if_neg h2, if_neg h1, if_neg h1, if_neg h2]; rfl

theorem fromGrid_re (s : ℝ) (c : ℂ) (q : QPt) : (fromGrid s c q).re = c.re + q.x / s := by
  unfold fromGrid
  rw [Complex.add_re, Complex.div_ofReal_re]

theorem fromGrid_im (s : ℝ) (c : ℂ) (q : QPt) : (fromGrid s c q).im = c.im + q.y / s := by
  unfold fromGrid
  rw [Complex.add_im, Complex.div_ofReal_im]

theorem areaC_fromGrid (s : ℝ) (c : ℂ) (u v q : QPt) : areaC (fromGrid s c u) (fromGrid s c v) (fromGrid s c q) =
    (((v.x - u.x) * (q.y - u.y) - (v.y - u.y) * (q.x - u.x) : ℚ) : ℝ) / (s * s) := by
  unfold areaC
  simp only [fromGrid_re, fromGrid_im]
  push_cast
  ring

/-- Winding numbers on the grid are those in the plane. -/
theorem edgeWindC_fromGrid {s : ℝ} (hs : 0 < s) (c : ℂ) (u v : Pt) (q : QPt) :
    edgeWindC (fromGrid s c u.q) (fromGrid s c v.q) (fromGrid s c q) = edgeWind u v q := by
  have hle : ∀ a b : QPt, (fromGrid s c a).re ≤ (fromGrid s c b).re ↔ a.x ≤ b.x := by
    intro a b
    rw [fromGrid_re, fromGrid_re, add_le_add_iff_left, div_le_div_iff_of_pos_right hs]
    exact_mod_cast Iff.rfl
  have hlt : ∀ a b : QPt, (fromGrid s c a).re < (fromGrid s c b).re ↔ a.x < b.x := by
    intro a b
    rw [← not_le, hle, not_le]
  have hab : ∀ a b : Pt, 0 < areaC (fromGrid s c a.q) (fromGrid s c b.q) (fromGrid s c q) ↔ aboveLine a b q := by
    intro a b
    rw [areaC_fromGrid, div_pos_iff_of_pos_right (by positivity)]
    unfold aboveLine Pt.q
    dsimp only
    rw [Rat.cast_pos, sub_pos]
  have hle' : ∀ (a : Pt), (fromGrid s c a.q).re ≤ (fromGrid s c q).re ↔ (a.x : ℚ) ≤ q.x := fun a => hle _ _
  have hlt' : ∀ (a : Pt), (fromGrid s c q).re < (fromGrid s c a.q).re ↔ q.x < (a.x : ℚ) := fun a => hlt _ _
  unfold edgeWindC edgeWind
  classical
  exact if_congr (and_congr (hle' u) (and_congr (hlt' v) (hab u v))) rfl
    (if_congr (and_congr (hle' v) (and_congr (hlt' u) (hab v u))) rfl rfl)

theorem triWind_one {u v w z : ℂ} (h : 0 ≤ areaC u v w) (c1 : u.re ≤ z.re) (c2 : z.re < v.re) (c3 : z.re < w.re) :
    0 ≤ edgeWindC u v z + edgeWindC v w z + edgeWindC w u z := by
  have e2 : edgeWindC v w z = 0 := by
    unfold edgeWindC
    rw [if_neg (by intro h; linarith [h.1]), if_neg (by intro h; linarith [h.1])]
  have e1 : edgeWindC u v z = if 0 < areaC u v z then 1 else 0 := by
    unfold edgeWindC
    by_cases ha : 0 < areaC u v z
    · rw [if_pos ⟨c1, c2, ha⟩, if_pos ha]
    · rw [if_neg fun h => ha h.2.2, if_neg (by intro h; linarith [h.1]), if_neg ha]
  have e3 : edgeWindC w u z = - if 0 < areaC u w z then 1 else 0 := by
    rw [edgeWindC_swap]
    unfold edgeWindC
    by_cases ha : 0 < areaC u w z
    · rw [if_pos ⟨c1, c3, ha⟩, if_pos ha]
    · rw [if_neg fun h => ha h.2.2, if_neg (by intro h; linarith [h.1]), if_neg ha]
  rw [e1, e2, e3]
  by_cases ha : 0 < areaC u w z
  · have : 0 < areaC u v z := by
      have e : areaC u v z * (w.re - u.re) = areaC u w z * (v.re - u.re) + areaC u v w * (z.re - u.re) := by
        unfold areaC; ring
      have p1 : 0 < areaC u w z * (v.re - u.re) := mul_pos ha (by linarith)
      have p2 : 0 ≤ areaC u v w * (z.re - u.re) := mul_nonneg h (by linarith)
      by_contra hn
      have := mul_nonpos_of_nonpos_of_nonneg (not_lt.1 hn) (by linarith : (0 : ℝ) ≤ w.re - u.re)
      linarith
    rw [if_pos this, if_pos ha]; norm_num
  · rw [if_neg ha]; split <;> norm_num

theorem triWind_two {u v w z : ℂ} (h : 0 ≤ areaC u v w) (c1 : u.re ≤ z.re) (c2 : v.re ≤ z.re) (c3 : z.re < w.re) :
    0 ≤ edgeWindC u v z + edgeWindC v w z + edgeWindC w u z := by
  have e1 : edgeWindC u v z = 0 := by
    unfold edgeWindC
    rw [if_neg (by intro h; linarith [h.2.1]), if_neg (by intro h; linarith [h.2.1])]
  have e2 : edgeWindC v w z = if 0 < areaC v w z then 1 else 0 := by
    unfold edgeWindC
    by_cases ha : 0 < areaC v w z
    · rw [if_pos ⟨c2, c3, ha⟩, if_pos ha]
    · rw [if_neg fun h => ha h.2.2, if_neg (by intro h; linarith [h.1]), if_neg ha]
  have e3 : edgeWindC w u z = - if 0 < areaC u w z then 1 else 0 := by
    rw [edgeWindC_swap]
    unfold edgeWindC
    by_cases ha : 0 < areaC u w z
    · rw [if_pos ⟨c1, c3, ha⟩, if_pos ha]
    · rw [if_neg fun h => ha h.2.2, if_neg (by intro h; linarith [h.1]), if_neg ha]
  rw [e1, e2, e3]
  by_cases ha : 0 < areaC u w z
  · have : 0 < areaC v w z := by
      have e : areaC v w z * (w.re - u.re) = areaC u w z * (w.re - v.re) + areaC u v w * (w.re - z.re) := by
        unfold areaC; ring
      have p1 : 0 < areaC u w z * (w.re - v.re) := mul_pos ha (by linarith)
      have p2 : 0 ≤ areaC u v w * (w.re - z.re) := mul_nonneg h (by linarith)
      by_contra hn
      have := mul_nonpos_of_nonpos_of_nonneg (not_lt.1 hn) (by linarith : (0 : ℝ) ≤ w.re - u.re)
      linarith
    rw [if_pos this, if_pos ha]; norm_num
  · rw [if_neg ha]; split <;> norm_num

theorem areaC_rotate (u v w : ℂ) : areaC v w u = areaC u v w := by unfold areaC; ring

/-- A counterclockwise triangle winds nonnegatively around every point. -/
theorem triWind_nonneg {u v w : ℂ} (h : 0 ≤ areaC u v w) (z : ℂ) :
    0 ≤ edgeWindC u v z + edgeWindC v w z + edgeWindC w u z := by
  have hv : 0 ≤ areaC v w u := by rw [areaC_rotate]; exact h
  have hw : 0 ≤ areaC w u v := by rw [areaC_rotate, areaC_rotate]; exact h
  by_cases c1 : u.re ≤ z.re <;> by_cases c2 : v.re ≤ z.re <;> by_cases c3 : w.re ≤ z.re
  · have e : ∀ a b : ℂ, a.re ≤ z.re → b.re ≤ z.re → edgeWindC a b z = 0 := by
      intro a b ha hb
      unfold edgeWindC
      rw [if_neg (by intro h; linarith [h.2.1]), if_neg (by intro h; linarith [h.2.1])]
    rw [e u v c1 c2, e v w c2 c3, e w u c3 c1]; norm_num
  · exact triWind_two h c1 c2 (not_le.1 c3)
  · have := triWind_two hw c3 c1 (not_le.1 c2); linarith
  · exact triWind_one h c1 (not_le.1 c2) (not_le.1 c3)
  · have := triWind_two hv c2 c3 (not_le.1 c1); linarith
  · have := triWind_one hv c2 (not_le.1 c3) (not_le.1 c1); linarith
  · have := triWind_one hw c3 (not_le.1 c1) (not_le.1 c2); linarith
  · have e : ∀ a b : ℂ, ¬ a.re ≤ z.re → ¬ b.re ≤ z.re → edgeWindC a b z = 0 := by
      intro a b ha hb
      unfold edgeWindC
      rw [if_neg (by intro h; exact ha h.1), if_neg (by intro h; exact hb h.1)]
    rw [e u v c1 c2, e v w c2 c3, e w u c3 c1]; norm_num

/-- An edge may be divided at a point in line with its ends. -/
theorem edgeWindC_line {u m v : ℂ} (h : areaC u m v = 0) (z : ℂ) :
    edgeWindC u v z = edgeWindC u m z + edgeWindC m v z := by
  have h1 := triWind_nonneg h.ge z
  have h2 := triWind_nonneg (u := v) (v := m) (w := u) (by
    have : areaC v m u = - areaC u m v := by unfold areaC; ring
    rw [this, h]; norm_num) z
  have s1 := edgeWindC_swap u m z
  have s2 := edgeWindC_swap m v z
  have s3 := edgeWindC_swap u v z
  linarith

/-! ### convex sets -/

/-- Around a point outside a convex set, the edges between points of the set wind by the difference of a potential. -/
theorem edgeWindC_convex {K : Set ℂ} (hK : Convex ℝ K) {z : ℂ} (hz : z ∉ K) :
    ∃ f : ℂ → Int, ∀ u v : ℂ, u ∈ K → v ∈ K → edgeWindC u v z = f u - f v := by
  classical
  have lerp : ∀ {u v : ℂ} {t : ℝ} (x y : ℝ), u ∈ K → v ∈ K → 0 ≤ t → t ≤ 1 → x = u.re + t * (v.re - u.re) →
      y = u.im + t * (v.im - u.im) → (⟨x, y⟩ : ℂ) ∈ K := by
    intro u v t x y hu hv t0 t1 hx hy
    have := hK hu hv (by linarith : (0 : ℝ) ≤ 1 - t) t0 (by ring)
    convert this using 1
    apply Complex.ext
    · simp only [Complex.add_re, Complex.smul_re, smul_eq_mul]; rw [hx]; ring
    · simp only [Complex.add_im, Complex.smul_im, smul_eq_mul]; rw [hy]; ring
  have same : ∀ u v u' v' : ℂ, u ∈ K → v ∈ K → u' ∈ K → v' ∈ K →
      u.re ≤ z.re → z.re < v.re → u'.re ≤ z.re → z.re < v'.re → 0 < areaC u v z → 0 < areaC u' v' z := by
    intro u v u' v' hu hv hu' hv' c1 c2 c3 c4 hab
    by_contra hn
    rw [not_lt] at hn
    apply hz
    have d1 : 0 < v.re - u.re := by linarith
    have d2 : 0 < v'.re - u'.re := by linarith
    obtain ⟨t, ht⟩ : ∃ t : ℝ, t * (v.re - u.re) = z.re - u.re := ⟨(z.re - u.re) / (v.re - u.re), by field_simp⟩
    obtain ⟨t', ht'⟩ : ∃ t : ℝ, t * (v'.re - u'.re) = z.re - u'.re := ⟨(z.re - u'.re) / (v'.re - u'.re), by field_simp⟩
    have t0 : 0 ≤ t := by by_contra h; nlinarith
    have t1 : t ≤ 1 := by by_contra h; nlinarith
    have t0' : 0 ≤ t' := by by_contra h; nlinarith
    have t1' : t' ≤ 1 := by by_contra h; nlinarith
    have w1 : (⟨z.re, u.im + t * (v.im - u.im)⟩ : ℂ) ∈ K := lerp _ _ hu hv t0 t1 (by linarith) rfl
    have w2 : (⟨z.re, u'.im + t' * (v'.im - u'.im)⟩ : ℂ) ∈ K := lerp _ _ hu' hv' t0' t1' (by linarith) rfl
    unfold areaC at hab hn
    have y1 : u.im + t * (v.im - u.im) < z.im := by
      have e : (v.re - u.re) * (u.im + t * (v.im - u.im)) = (v.re - u.re) * u.im + (v.im - u.im) * (z.re - u.re) := by
        rw [← ht]; ring
      by_contra h
      have := mul_le_mul_of_nonneg_left (not_lt.1 h) d1.le
      rw [e] at this; linarith
    have y2 : z.im ≤ u'.im + t' * (v'.im - u'.im) := by
      have e : (v'.re - u'.re) * (u'.im + t' * (v'.im - u'.im)) = (v'.re - u'.re) * u'.im + (v'.im - u'.im) * (z.re - u'.re) := by
        rw [← ht']; ring
      by_contra h
      have := mul_lt_mul_of_pos_left (not_le.1 h) d2
      rw [e] at this; linarith
    generalize u.im + t * (v.im - u.im) = A at *
    generalize u'.im + t' * (v'.im - u'.im) = B at *
    have hAB : 0 < B - A := by linarith
    have := lerp z.re z.im w1 w2 (t := (z.im - A) / (B - A)) (by apply div_nonneg <;> linarith)
      (by rw [div_le_one hAB]; linarith) (by simp) (by dsimp only; field_simp; ring)
    exact this
  by_cases hc : ∃ u v : ℂ, u ∈ K ∧ v ∈ K ∧ u.re ≤ z.re ∧ z.re < v.re ∧ 0 < areaC u v z
  · obtain ⟨u0, v0, a1, a2, a3, a4, a5⟩ := hc
    refine ⟨fun u => if u.re ≤ z.re then 1 else 0, ?_⟩
    intro u v hu hv
    unfold edgeWindC
    by_cases c1 : u.re ≤ z.re <;> by_cases c2 : v.re ≤ z.re
    · rw [if_neg (by intro h; linarith [h.2.1]), if_neg (by intro h; linarith [h.2.1])]; simp [c1, c2]
    · rw [if_pos ⟨c1, not_le.1 c2, same u0 v0 u v a1 a2 hu hv a3 a4 c1 (not_le.1 c2) a5⟩]; simp [c1, c2]
    · rw [if_neg (by intro h; exact c1 h.1), if_pos ⟨c2, not_le.1 c1, same u0 v0 v u a1 a2 hv hu a3 a4 c2 (not_le.1 c1) a5⟩]
      simp [c1, c2]
    · rw [if_neg (by intro h; exact c1 h.1), if_neg (by intro h; exact c2 h.1)]; simp [c1, c2]
  · refine ⟨fun _ => 0, ?_⟩
    intro u v hu hv
    unfold edgeWindC
    rw [if_neg fun h => hc ⟨u, v, hu, hv, h⟩, if_neg fun h => hc ⟨v, u, hv, hu, h⟩]; simp

/-! ### sums over polygons and chains -/

/-- Sum over the consecutive points of a list. -/
def chainSum (g : ℂ → ℂ → Int) : List ℂ → Int
  | a :: b :: l => g a b + chainSum g (b :: l)
  | _ => 0

/-- Sum over the edges of a polygon. -/
def cycSum (g : ℂ → ℂ → Int) (l : List ℂ) : Int := ((cycleEdges l).map fun e => g e.1 e.2).sum

theorem polyWindC_eq (l : List ℂ) (z : ℂ) : polyWindC l z = cycSum (fun u v => edgeWindC u v z) l := rfl

theorem cycSum_cons (g : ℂ → ℂ → Int) (p : ℂ) (l : List ℂ) : cycSum g (p :: l) = chainSum g (p :: l ++ [p]) := by
  have key : ∀ (l : List ℂ) (p q : ℂ), (((p :: l).zip (l ++ [q])).map fun e => g e.1 e.2).sum = chainSum g (p :: l ++ [q]) := by
    intro l
    induction l with
    | nil => intro p q; simp [chainSum]
    | cons m l ih =>
      intro p q
      rw [List.cons_append, List.zip_cons_cons, List.map_cons, List.sum_cons, ih m q]
      rfl
  exact key l p p

theorem chainSum_snoc (g : ℂ → ℂ → Int) : ∀ (l : List ℂ) (a b : ℂ),
    chainSum g (l ++ [a, b]) = chainSum g (l ++ [a]) + g a b := by
  intro l
  induction l with
  | nil => intro a b; simp [chainSum]
  | cons x l ih =>
    intro a b
    cases l with
    | nil => simp [chainSum]
    | cons y l =>
      have := ih a b
      simp only [List.cons_append, chainSum] at this ⊢
      rw [this]; ring

/-- A fan around `c`: the polygon through `c` and the given points. -/
theorem fan_nonneg {c : ℂ} : ∀ {l : List ℂ}, l.IsChain (fun p q => 0 ≤ areaC c p q) → ∀ z, 0 ≤ polyWindC (c :: l) z := by
  intro l hl z
  rw [polyWindC_eq, cycSum_cons]
  set g := fun u v => edgeWindC u v z with hg
  cases l with
  | nil =>
    simp only [List.cons_append, List.nil_append, chainSum]
    have := edgeWindC_swap c c z
    simp only [hg]; omega
  | cons a l =>
    have key : ∀ (l : List ℂ) (a : ℂ), (a :: l).IsChain (fun p q => 0 ≤ areaC c p q) → 0 ≤ g c a + chainSum g (a :: l ++ [c]) := by
      intro l
      induction l with
      | nil =>
        intro a _
        simp only [List.cons_append, List.nil_append, chainSum]
        have := edgeWindC_swap c a z
        simp only [hg]; omega
      | cons b l ih =>
        intro a h
        rw [List.isChain_cons_cons] at h
        have h1 := ih b h.2
        have h2 := triWind_nonneg h.1 z
        have h3 := edgeWindC_swap c b z
        simp only [List.cons_append, chainSum] at h1 ⊢
        simp only [hg] at h1 h2 h3 ⊢
        omega
    exact key l a hl

/-! ### moved vertices -/

/-- If both ends of an edge are moved by at most `d`, its contribution around a point farther than `d` from the edge changes by the
contributions of the two moves. -/
theorem edgeWindC_moved {d : ℝ} {u v u' v' z : ℂ} (hu : ‖u' - u‖ ≤ d) (hv : ‖v' - v‖ ≤ d) (hz : ¬ NearLine d z u v) :
    edgeWindC u' v' z = edgeWindC u v z + edgeWindC v v' z - edgeWindC u u' z := by
  have hd : 0 ≤ d := (norm_nonneg _).trans hu
  have hK : Convex ℝ {y | NearLine d y u v} := by
    rw [convex_iff_segment_subset]
    intro a ha b hb y hy
    exact NearLine.convex ha hb hy
  obtain ⟨f, hf⟩ := edgeWindC_convex hK hz
  have m1 : u ∈ {y | NearLine d y u v} := .left (by simpa using hd)
  have m2 : v ∈ {y | NearLine d y u v} := .right (by simpa using hd)
  have m3 : u' ∈ {y | NearLine d y u v} := .left hu
  have m4 : v' ∈ {y | NearLine d y u v} := .right hv
  rw [hf _ _ m3 m4, hf _ _ m1 m2, hf _ _ m2 m4, hf _ _ m1 m3]
  ring

end IOverlay
