/-
The shoelace area of closed polygons is the integral of their winding number: it is positive if the winding
number is nowhere negative and somewhere positive, and equal for equal winding numbers. C58, C59.
-/
import Verif.Wind
import Verif.LoopWind
import Mathlib.Algebra.BigOperators.Intervals
import Mathlib.Data.List.Sort

namespace IOverlay

/-! ### sums along a vertical line -/

/-- Sum of the weights below `y`. -/
def wBelow (l : List (ℚ × Int)) (y : ℚ) : Int := (l.map fun p => if p.1 < y then p.2 else 0).sum

theorem wBelow_perm {l m : List (ℚ × Int)} (h : l.Perm m) (y : ℚ) : wBelow l y = wBelow m y := (h.map _).sum_eq

theorem abel_sorted : ∀ (l : List (ℚ × Int)) (w : Int) (h0 : ℚ), l.Pairwise (fun a b => a.1 ≤ b.1) → (∀ p ∈ l, h0 ≤ p.1) →
    w + (l.map (·.2)).sum = 0 → (∀ y, h0 < y → 0 ≤ w + wBelow l y) →
    (w * h0 + (l.map fun p => (p.2:ℚ) * p.1).sum ≤ 0) ∧
    ((∃ y, h0 < y ∧ 0 < w + wBelow l y) → w * h0 + (l.map fun p => (p.2:ℚ) * p.1).sum < 0) := by
  intro l
  induction l with
  | nil =>
    intro w h0 _ _ hs hw
    simp only [List.map_nil, List.sum_nil, add_zero] at hs
    subst hs
    refine ⟨by simp, ?_⟩
    rintro ⟨y, -, hy⟩
    simp [wBelow] at hy
  | cons p l ih =>
    intro w h0 hsrt hge hs hw
    rw [List.pairwise_cons] at hsrt
    have hp0 : h0 ≤ p.1 := hge p (by simp)
    have hcons : ∀ y, wBelow (p :: l) y = (if p.1 < y then p.2 else 0) + wBelow l y := by
      intro y; unfold wBelow; simp
    have hlow : ∀ y, y ≤ p.1 → wBelow (p :: l) y = 0 := by
      intro y hy
      unfold wBelow
      refine List.sum_eq_zero ?_
      intro z hz
      obtain ⟨a, ha, rfl⟩ := List.mem_map.1 hz
      refine if_neg ?_
      rcases List.mem_cons.1 ha with rfl | ha
      · exact not_lt.2 hy
      · exact not_lt.2 (hy.trans (hsrt.1 a ha))
    obtain ⟨i1, i2⟩ := ih (w + p.2) p.1 hsrt.2 hsrt.1 (by simp only [List.map_cons, List.sum_cons] at hs; omega) (by
      intro y hy
      have := hw y (lt_of_le_of_lt hp0 hy)
      rw [hcons, if_pos hy] at this
      omega)
    have hstep : ((w:Int):ℚ) * (h0 - p.1) ≤ 0 := by
      rcases eq_or_lt_of_le hp0 with h | h
      · rw [h]; simp
      · have h1 := hw p.1 h
        rw [hlow _ le_rfl, add_zero] at h1
        have h2 : (0:ℚ) ≤ w := by exact_mod_cast h1
        nlinarith
    have hsum : (w:ℚ) * h0 + ((p :: l).map fun p => (p.2:ℚ) * p.1).sum =
        (w:ℚ) * (h0 - p.1) + (((w + p.2 : Int):ℚ) * p.1 + (l.map fun p => (p.2:ℚ) * p.1).sum) := by
      simp only [List.map_cons, List.sum_cons]; push_cast; ring
    rw [hsum]
    refine ⟨by linarith, ?_⟩
    rintro ⟨y, hy, hpos⟩
    by_cases hyp : p.1 < y
    · have := i2 ⟨y, hyp, by rw [hcons, if_pos hyp] at hpos; omega⟩
      linarith
    · have hyp := not_lt.1 hyp
      rw [hlow y hyp, add_zero] at hpos
      have h2 : (0:ℚ) < w := by exact_mod_cast hpos
      have h3 : h0 < p.1 := lt_of_lt_of_le hy hyp
      nlinarith

/-- Weights with sum zero whose partial sums from below are not negative. -/
theorem abel (l : List (ℚ × Int)) (hs : (l.map (·.2)).sum = 0) (hw : ∀ y, 0 ≤ wBelow l y) :
    ((l.map fun p => (p.2:ℚ) * p.1).sum ≤ 0) ∧ ((∃ y, 0 < wBelow l y) → (l.map fun p => (p.2:ℚ) * p.1).sum < 0) := by
  classical
  let m := l.insertionSort (fun a b : ℚ × Int => a.1 ≤ b.1)
  have hperm : m.Perm l := List.perm_insertionSort _ l
  have hsrt : m.Pairwise (fun a b : ℚ × Int => a.1 ≤ b.1) := by
    have : Std.Total (fun a b : ℚ × Int => a.1 ≤ b.1) := ⟨fun a b => le_total _ _⟩
    have : IsTrans (ℚ × Int) (fun a b : ℚ × Int => a.1 ≤ b.1) := ⟨fun a b c h h' => le_trans h h'⟩
    exact List.pairwise_insertionSort _ l
  obtain ⟨h0, hge⟩ : ∃ h0 : ℚ, ∀ p ∈ m, h0 ≤ p.1 := by
    rcases hm : m with _ | ⟨p, m'⟩
    · exact ⟨0, by simp⟩
    · rw [hm, List.pairwise_cons] at hsrt
      refine ⟨p.1, fun x hx => ?_⟩
      rcases List.mem_cons.1 hx with rfl | hx
      · exact le_rfl
      · exact hsrt.1 x hx
  obtain ⟨a1, a2⟩ := abel_sorted m 0 h0 hsrt hge (by rw [zero_add, (hperm.map _).sum_eq, hs])
    (by intro y _; rw [zero_add, wBelow_perm hperm]; exact hw y)
  have he : (((0:Int):ℚ) * h0 + (m.map fun p => (p.2:ℚ) * p.1).sum) = (l.map fun p => (p.2:ℚ) * p.1).sum := by
    rw [(hperm.map _).sum_eq]; simp
  rw [he] at a1 a2
  refine ⟨a1, ?_⟩
  rintro ⟨y, hy⟩
  refine a2 ⟨y, ?_, by rw [zero_add, wBelow_perm hperm]; exact hy⟩
  by_contra hn
  have : wBelow l y = 0 := by
    rw [← wBelow_perm hperm]
    unfold wBelow
    refine List.sum_eq_zero ?_
    intro z hz
    obtain ⟨a, ha, rfl⟩ := List.mem_map.1 hz
    exact if_neg (not_lt.2 ((not_lt.1 hn).trans (hge a ha)))
  omega

/-! ### steps over a vertical line -/

open Classical in
/-- Sign of a step over the line at `x`. -/
noncomputable def crossSign (e : Pt × Pt) (x : ℚ) : Int :=
  if (e.1.x:ℚ) ≤ x ∧ x < e.2.x then 1 else if (e.2.x:ℚ) ≤ x ∧ x < e.1.x then -1 else 0

/-- Height of a step at `x`. -/
def stepHeight (e : Pt × Pt) (x : ℚ) : ℚ := e.1.y + (e.2.y - e.1.y) * ((x - e.1.x) / (e.2.x - e.1.x))

open Classical in
theorem edgeWind_cross (e : Pt × Pt) (x y : ℚ) :
    edgeWind e.1 e.2 ⟨x, y⟩ = if stepHeight e x < y then crossSign e x else 0 := by
  unfold edgeWind crossSign aboveLine
  have key : (e.2.x:ℚ) - e.1.x ≠ 0 → ((e.2.y:ℚ) - e.1.y) * (x - e.1.x) = ((e.2.x:ℚ) - e.1.x) * (stepHeight e x - e.1.y) := by
    intro h
    unfold stepHeight
    field_simp
    ring
  by_cases h1 : (e.1.x:ℚ) ≤ x ∧ x < e.2.x
  · have hd : (0:ℚ) < (e.2.x:ℚ) - e.1.x := by linarith [h1.1, h1.2]
    have hk := key hd.ne'
    have h2 : ¬ ((e.2.x:ℚ) ≤ x ∧ x < e.1.x) := fun h => by linarith [h1.1, h1.2, h.1, h.2]
    have hiff : (((e.2.y:ℚ) - e.1.y) * (x - e.1.x) < ((e.2.x:ℚ) - e.1.x) * (y - e.1.y)) ↔ stepHeight e x < y := by
      rw [hk, mul_lt_mul_iff_right₀ hd]
      constructor <;> intro h <;> linarith
    simp only [h1, true_and, hiff, if_true]
    split
    · rfl
    · rw [if_neg]; rintro ⟨a, b, -⟩; exact h2 ⟨a, b⟩
  · by_cases h2 : (e.2.x:ℚ) ≤ x ∧ x < e.1.x
    · have hd : (0:ℚ) < (e.1.x:ℚ) - e.2.x := by linarith [h2.1, h2.2]
      have hk := key (by linarith)
      have hiff : (((e.1.y:ℚ) - e.2.y) * (x - e.2.x) < ((e.1.x:ℚ) - e.2.x) * (y - e.2.y)) ↔ stepHeight e x < y := by
        have : ((e.1.y:ℚ) - e.2.y) * (x - e.2.x) = ((e.1.x:ℚ) - e.2.x) * (stepHeight e x - e.2.y) := by
          linear_combination -hk
        rw [this, mul_lt_mul_iff_right₀ hd]
        constructor <;> intro h <;> linarith
      rw [if_neg (fun h => h1 ⟨h.1, h.2.1⟩)]
      simp only [h2, true_and, hiff, if_neg h1]
      simp
    · rw [if_neg (fun h => h1 ⟨h.1, h.2.1⟩), if_neg (fun h => h2 ⟨h.1, h.2.1⟩), if_neg h1, if_neg h2]; simp

/-- Closed system of steps. -/
def ClosedSteps (L : List (Pt × Pt)) : Prop := ∀ f : Pt → Int, (L.map fun e => f e.1 - f e.2).sum = 0

noncomputable def colSum (L : List (Pt × Pt)) (x : ℚ) : ℚ := (L.map fun e => (crossSign e x : ℚ) * stepHeight e x).sum

theorem stepsWind_below (L : List (Pt × Pt)) (x y : ℚ) :
    stepsWind L ⟨x, y⟩ = wBelow (L.map fun e => (stepHeight e x, crossSign e x)) y := by
  unfold stepsWind wBelow
  rw [List.map_map]
  congr 1
  refine List.map_congr_left fun e _ => ?_
  rw [edgeWind_cross]
  simp only [Function.comp]

open Classical in
theorem crossSign_sum {L : List (Pt × Pt)} (h : ClosedSteps L) (x : ℚ) : (L.map fun e => crossSign e x).sum = 0 := by
  rw [← h fun p => if (p.x:ℚ) ≤ x then 1 else 0]
  congr 1
  refine List.map_congr_left fun e _ => ?_
  unfold crossSign
  by_cases h1 : (e.1.x:ℚ) ≤ x <;> by_cases h2 : (e.2.x:ℚ) ≤ x
  · rw [if_neg (fun h => absurd h.2 (not_lt.2 h2)), if_neg (fun h => absurd h.2 (not_lt.2 h1)), if_pos h1, if_pos h2]; rfl
  · rw [if_pos ⟨h1, not_le.1 h2⟩, if_pos h1, if_neg h2]; rfl
  · rw [if_neg (fun h => h1 h.1), if_pos ⟨h2, not_le.1 h1⟩, if_neg h1, if_pos h2]; rfl
  · rw [if_neg (fun h => h1 h.1), if_neg (fun h => h2 h.1), if_neg h1, if_neg h2]; rfl

theorem colSum_sign {L : List (Pt × Pt)} (h : ClosedSteps L) (hw : ∀ q, 0 ≤ stepsWind L q) (x : ℚ) :
    colSum L x ≤ 0 ∧ ((∃ y, 0 < stepsWind L ⟨x, y⟩) → colSum L x < 0) := by
  have := abel (L.map fun e => (stepHeight e x, crossSign e x)) (by
    rw [List.map_map]; exact crossSign_sum h x) (by intro y; rw [← stepsWind_below]; exact hw _)
  rw [List.map_map] at this
  refine ⟨this.1, ?_⟩
  rintro ⟨y, hy⟩
  exact this.2 ⟨y, by rw [← stepsWind_below]; exact hy⟩

/-! ### columns of width one -/

theorem crossSign_col (e : Pt × Pt) {n : Int} {x : ℚ} (h1 : (n:ℚ) ≤ x) (h2 : x < n + 1) : crossSign e x = crossSign e n := by
  have k : ∀ m : Int, (m:ℚ) ≤ x ↔ (m:ℚ) ≤ (n:ℚ) := by
    intro m
    constructor
    · intro h
      have : (m:ℚ) < n + 1 := lt_of_le_of_lt h h2
      have : m < n + 1 := by exact_mod_cast this
      exact_mod_cast (by omega : m ≤ n)
    · intro h; exact h.trans h1
  have k' : ∀ m : Int, x < (m:ℚ) ↔ (n:ℚ) < m := fun m => by rw [← not_le, ← not_le, k m]
  unfold crossSign
  simp only [k, k']

theorem stepHeight_affine (e : Pt × Pt) (x y a b : ℚ) (h : a + b = 1) :
    stepHeight e (a * x + b * y) = a * stepHeight e x + b * stepHeight e y := by
  unfold stepHeight
  have hb : b = 1 - a := by linarith
  subst hb
  ring

theorem colSum_affine (L : List (Pt × Pt)) {n : Int} {x y z a b : ℚ} (h : a + b = 1) (hz : z = a * x + b * y)
    (x1 : (n:ℚ) ≤ x) (x2 : x < n + 1) (y1 : (n:ℚ) ≤ y) (y2 : y < n + 1) (z1 : (n:ℚ) ≤ z) (z2 : z < n + 1) :
    colSum L z = a * colSum L x + b * colSum L y := by
  unfold colSum
  rw [← List.sum_map_mul_left, ← List.sum_map_mul_left, ← List.sum_map_add]
  congr 1
  refine List.map_congr_left fun e _ => ?_
  rw [crossSign_col e x1 x2, crossSign_col e y1 y2, crossSign_col e z1 z2, hz, stepHeight_affine e x y a b h]
  ring

/-- Twice the area of a closed system of steps, by the shoelace formula. -/
def stepsArea (L : List (Pt × Pt)) : Int := (L.map fun e => e.1.x * e.2.y - e.1.y * e.2.x).sum

theorem stepsArea_append (L M : List (Pt × Pt)) : stepsArea (L ++ M) = stepsArea L + stepsArea M := by
  unfold stepsArea; simp

theorem doubleArea_steps (c : List Pt) : doubleArea c = stepsArea (polyEdges c) := by
  unfold doubleArea stepsArea polyEdges
  cases c <;> rfl

/-- A step covers its columns. -/
theorem step_columns (e : Pt × Pt) (A : Int) (N : Nat) (h1 : A ≤ e.1.x) (h2 : A ≤ e.2.x) (h3 : e.1.x ≤ A + N) (h4 : e.2.x ≤ A + N) :
    ((e.2.x:ℚ) - e.1.x) * (e.1.y + e.2.y) = 2 * ∑ i ∈ Finset.range N,
      (crossSign e (A + i + 1/2) : ℚ) * stepHeight e (A + i + 1/2) := by
  -- rightward steps
  have right : ∀ u v : Pt, u.x < v.x → A ≤ u.x → v.x ≤ A + N →
      ((v.x:ℚ) - u.x) * (u.y + v.y) = 2 * ∑ i ∈ Finset.range N,
        (crossSign (u, v) (A + i + 1/2) : ℚ) * stepHeight (u, v) (A + i + 1/2) := by
    intro u v huv hu hv
    have hd : (0:ℚ) < (v.x:ℚ) - u.x := by
      have : (u.x:ℚ) < v.x := by exact_mod_cast huv
      linarith
    -- antiderivative
    let F : ℚ → ℚ := fun x => u.y * (x - u.x) + (v.y - u.y) / ((v.x:ℚ) - u.x) * (x - u.x) ^ 2 / 2
    let P : Nat → ℚ := fun i => F (if A + i ≤ u.x then (u.x:ℚ) else if v.x ≤ A + i then (v.x:ℚ) else (A:ℚ) + i)
    have hterm : ∀ i : Nat, (crossSign (u, v) (A + i + 1/2) : ℚ) * stepHeight (u, v) (A + i + 1/2) = P (i + 1) - P i := by
      intro i
      have hc : crossSign (u, v) ((A:ℚ) + i + 1/2) = crossSign (u, v) ((A + i : Int) : ℚ) := by
        refine crossSign_col _ ?_ ?_ <;> push_cast <;> linarith
      rw [hc]
      unfold crossSign
      simp only [Int.cast_le, Int.cast_lt]
      have c2 : ¬ (v.x ≤ A + (i:Int) ∧ A + (i:Int) < u.x) := by omega
      by_cases c1 : u.x ≤ A + (i:Int) ∧ A + (i:Int) < v.x
      · rw [if_pos c1]
        have hP1 : P (i + 1) = F ((A:ℚ) + i + 1) := by
          show F _ = _
          congr 1
          rw [if_neg (by push_cast; omega)]
          split
          · rename_i h
            have : v.x = A + i + 1 := by push_cast at h; omega
            rw [this]; push_cast; ring
          · push_cast; ring
        have hP0 : P i = F ((A:ℚ) + i) := by
          show F _ = _
          congr 1
          split
          · rename_i h
            have : u.x = A + i := by omega
            rw [this]; push_cast; ring
          · rw [if_neg (by omega)]
        rw [hP1, hP0]
        simp only [F, stepHeight]
        push_cast
        ring
      · rw [if_neg c1, if_neg c2]
        have : P (i + 1) = P i := by
          show F _ = F _
          congr 1
          rcases le_or_gt (u.x) (A + i) with h | h
          · have hv' : v.x ≤ A + i := by by_contra hn; exact c1 ⟨h, by omega⟩
            rw [if_neg (by push_cast; omega), if_pos (by push_cast; omega), if_neg (by omega), if_pos hv']
          · rw [if_pos (by push_cast; omega), if_pos (by omega)]
        rw [this]; simp
    rw [Finset.sum_congr rfl fun i _ => hterm i, Finset.sum_range_sub]
    have hPN : P N = F v.x := by
      show F _ = _
      congr 1
      rw [if_neg (by omega), if_pos (by omega)]
    have hP0 : P 0 = F u.x := by
      show F _ = _
      congr 1
      rw [if_pos (by push_cast; omega)]
    rw [hPN, hP0]
    simp only [F]
    field_simp
    ring
  have swapS : ∀ u v x, crossSign (v, u) x = - crossSign (u, v) x := by
    intro u v x
    unfold crossSign
    dsimp only
    by_cases a : (u.x:ℚ) ≤ x ∧ x < v.x
    · have b : ¬ ((v.x:ℚ) ≤ x ∧ x < u.x) := fun h => by linarith [a.1, a.2, h.1, h.2]
      rw [if_neg b, if_pos a, if_pos a]
    · by_cases b : (v.x:ℚ) ≤ x ∧ x < u.x
      · rw [if_pos b, if_neg a, if_pos b]; rfl
      · rw [if_neg b, if_neg a, if_neg a, if_neg b]; rfl
  obtain ⟨u, v⟩ := e
  dsimp only at *
  rcases lt_trichotomy u.x v.x with h | h | h
  · exact right u v h h1 h4
  · have hz : ∀ x, crossSign (u, v) x = 0 := by
      intro x
      unfold crossSign
      dsimp only
      rw [h, if_neg (fun a => by linarith [a.1, a.2]), if_neg (fun a => by linarith [a.1, a.2])]
    simp only [hz, h]
    simp
  · have := right v u h h2 h3
    have hh : ∀ x, stepHeight (v, u) x = stepHeight (u, v) x := by
      intro x
      have hd : ((u.x:ℚ) - v.x) ≠ 0 := by
        have : (v.x:ℚ) < u.x := by exact_mod_cast h
        linarith
      have hd' : ((v.x:ℚ) - u.x) ≠ 0 := fun h => hd (by linarith)
      unfold stepHeight
      dsimp only
      rw [← sub_eq_zero]
      have e : (x - (v.x:ℚ)) / (u.x - v.x) = 1 - (x - u.x) / (v.x - u.x) := by
        field_simp; ring
      rw [e]; ring
    simp only [swapS u v, hh] at this
    simp only [Int.cast_neg, neg_mul, Finset.sum_neg_distrib] at this
    linarith

theorem columns_bound (L : List (Pt × Pt)) : ∃ (A : Int) (N : Nat), ∀ e ∈ L, A ≤ e.1.x ∧ A ≤ e.2.x ∧ e.1.x ≤ A + N ∧ e.2.x ≤ A + N := by
  induction L with
  | nil => exact ⟨0, 0, by simp⟩
  | cons e L ih =>
    obtain ⟨A, N, h⟩ := ih
    refine ⟨min A (min e.1.x e.2.x), ((max (A + N) (max e.1.x e.2.x)) - min A (min e.1.x e.2.x)).toNat, ?_⟩
    intro f hf
    rcases List.mem_cons.1 hf with rfl | hf
    · omega
    · have := h f hf; omega

/-- The area is the sum over the columns. -/
theorem area_columns {L : List (Pt × Pt)} (h : ClosedSteps L) {A : Int} {N : Nat}
    (hb : ∀ e ∈ L, A ≤ e.1.x ∧ A ≤ e.2.x ∧ e.1.x ≤ A + N ∧ e.2.x ≤ A + N) :
    (stepsArea L : ℚ) = -2 * ∑ i ∈ Finset.range N, colSum L (A + i + 1/2) := by
  have h0 := h fun p => p.x * p.y
  have e1 : stepsArea L = (L.map fun e => (e.1.x - e.2.x) * (e.1.y + e.2.y)).sum - (L.map fun e => e.1.x * e.1.y - e.2.x * e.2.y).sum := by
    unfold stepsArea
    clear h h0 hb
    induction L with
    | nil => rfl
    | cons e L ih => simp only [List.map_cons, List.sum_cons, ih]; ring
  rw [h0, sub_zero] at e1
  rw [e1]
  clear h h0 e1
  induction L with
  | nil => simp [colSum]
  | cons e L ih =>
    have he := hb e (by simp)
    have h1 := step_columns e A N he.1 he.2.1 he.2.2.1 he.2.2.2
    have h2 := ih fun f hf => hb f (by simp [hf])
    simp only [List.map_cons, List.sum_cons]
    push_cast at h2 ⊢
    rw [h2]
    have hc : ∀ x, colSum (e :: L) x = (crossSign e x : ℚ) * stepHeight e x + colSum L x := by
      intro x; unfold colSum; simp
    simp only [hc]
    rw [Finset.sum_add_distrib]
    linarith

/-- A nowhere negative winding number gives a nonnegative area, positive unless the winding number vanishes. -/
theorem area_sign {L : List (Pt × Pt)} (h : ClosedSteps L) (hw : ∀ q, 0 ≤ stepsWind L q) :
    0 ≤ stepsArea L ∧ ((∃ q, 0 < stepsWind L q) → 0 < stepsArea L) := by
  obtain ⟨A, N, hb⟩ := columns_bound L
  have ha := area_columns h hb
  have hle : ∀ i ∈ Finset.range N, colSum L ((A:ℚ) + (i:ℕ) + 1/2) ≤ 0 := fun i _ => (colSum_sign h hw _).1
  constructor
  · have := Finset.sum_nonpos hle
    have : (0:ℚ) ≤ stepsArea L := by rw [ha]; linarith
    exact_mod_cast this
  · rintro ⟨⟨x, y⟩, hq⟩
    -- the column of the point
    have f1 : (⌊x⌋:ℚ) ≤ x := Int.floor_le _
    have f2 : x < ⌊x⌋ + 1 := Int.lt_floor_add_one _
    have hneg := (colSum_sign h hw x).2 ⟨y, hq⟩
    have hin : A ≤ ⌊x⌋ ∧ ⌊x⌋ < A + N := by
      by_contra hn
      have hz : ∀ e ∈ L, crossSign e x = 0 := by
        intro e he
        rw [crossSign_col e f1 f2]
        unfold crossSign
        simp only [Int.cast_le, Int.cast_lt]
        have := hb e he
        rw [if_neg (by omega), if_neg (by omega)]
      have : colSum L x = 0 := by
        unfold colSum
        refine List.sum_eq_zero ?_
        intro z hz'
        obtain ⟨e, he, rfl⟩ := List.mem_map.1 hz'
        rw [hz e he]; simp
      linarith
    have hmid : colSum L ((⌊x⌋:ℚ) + 1/2) < 0 := by
      have := colSum_affine L (n := ⌊x⌋) (x := x) (y := (⌊x⌋:ℚ) + 1/2 + ((⌊x⌋:ℚ) + 1/2 - x) / 2) (z := (⌊x⌋:ℚ) + 1/2)
        (a := 1/3) (b := 2/3) (by norm_num) (by ring) f1 f2 (by linarith) (by linarith) (by linarith) (by linarith)
      have h2 := (colSum_sign h hw ((⌊x⌋:ℚ) + 1/2 + ((⌊x⌋:ℚ) + 1/2 - x) / 2)).1
      rw [this]; linarith
    have hlt : ∑ i ∈ Finset.range N, colSum L ((A:ℚ) + (i:ℕ) + 1/2) < 0 := by
      refine Finset.sum_neg' hle ⟨(⌊x⌋ - A).toNat, by rw [Finset.mem_range]; omega, ?_⟩
      have : (A:ℚ) + (((⌊x⌋ - A).toNat : ℕ) : ℚ) = (⌊x⌋:ℚ) := by
        have : (((⌊x⌋ - A).toNat : ℕ) : Int) = ⌊x⌋ - A := by omega
        have h3 : ((((⌊x⌋ - A).toNat : ℕ) : Int) : ℚ) = ((⌊x⌋ - A : Int) : ℚ) := by rw [this]
        push_cast at h3
        linarith
      rw [this]; exact hmid
    have : (0:ℚ) < stepsArea L := by rw [ha]; linarith
    exact_mod_cast this

/-! ### polygons -/

theorem ClosedSteps.append {L M : List (Pt × Pt)} (hL : ClosedSteps L) (hM : ClosedSteps M) : ClosedSteps (L ++ M) := by
  intro f; rw [List.map_append, List.sum_append, hL f, hM f]; rfl

theorem closed_polys (l : List (List Pt)) : ClosedSteps (l.flatMap polyEdges) := by
  induction l with
  | nil => intro f; rfl
  | cons c l ih => rw [List.flatMap_cons]; exact ClosedSteps.append (polyEdges_sum c) ih

theorem ClosedSteps.swap {L : List (Pt × Pt)} (h : ClosedSteps L) : ClosedSteps (L.map Prod.swap) := by
  intro f
  have := h fun p => - f p
  rw [List.map_map]
  rw [← this]
  congr 1
  refine List.map_congr_left fun e _ => ?_
  simp only [Function.comp, Prod.fst_swap, Prod.snd_swap]
  ring

theorem stepsArea_swap (L : List (Pt × Pt)) : stepsArea (L.map Prod.swap) = - stepsArea L := by
  unfold stepsArea
  induction L with
  | nil => rfl
  | cons e L ih => simp only [List.map_cons, List.sum_cons, ih, Prod.fst_swap, Prod.snd_swap]; ring

theorem stepsWind_polys (l : List (List Pt)) (q : QPt) : stepsWind (l.flatMap polyEdges) q = polysWind l q := by
  induction l with
  | nil => rfl
  | cons c l ih => rw [List.flatMap_cons, stepsWind_append, ih]; rfl

/-- Twice the total signed area of polygons. -/
def totalArea (l : List (List Pt)) : Int := (l.map doubleArea).sum

theorem stepsArea_polys (l : List (List Pt)) : stepsArea (l.flatMap polyEdges) = totalArea l := by
  unfold totalArea
  induction l with
  | nil => rfl
  | cons c l ih => rw [List.flatMap_cons, stepsArea_append, ih, ← doubleArea_steps]; rfl

/-- Polygons with larger winding numbers have larger areas. -/
theorem area_mono {l m : List (List Pt)} (h : ∀ q, polysWind l q ≤ polysWind m q) :
    totalArea l ≤ totalArea m ∧ ((∃ q, polysWind l q < polysWind m q) → totalArea l < totalArea m) := by
  have hw : ∀ q, stepsWind (m.flatMap polyEdges ++ (l.flatMap polyEdges).map Prod.swap) q = polysWind m q - polysWind l q := by
    intro q
    have e : (l.flatMap polyEdges).map Prod.swap = (l.flatMap polyEdges).map (turn false) := (turn_map_false _).symm
    rw [stepsWind_append, e, stepsWind_turn, stepsWind_polys, stepsWind_polys]
    simp; ring
  obtain ⟨h1, h2⟩ := area_sign (L := m.flatMap polyEdges ++ (l.flatMap polyEdges).map Prod.swap)
    ((closed_polys m).append (closed_polys l).swap) (by intro q; rw [hw]; have := h q; omega)
  rw [stepsArea_append, stepsArea_swap, stepsArea_polys, stepsArea_polys] at h1 h2
  refine ⟨by omega, ?_⟩
  rintro ⟨q, hq⟩
  have := h2 ⟨q, by rw [hw]; omega⟩
  omega

/-- Polygons with equal winding numbers have equal areas. -/
theorem area_congr {l m : List (List Pt)} (h : ∀ q, polysWind l q = polysWind m q) : totalArea l = totalArea m :=
  le_antisymm (area_mono fun q => (h q).le).1 (area_mono fun q => (h q).ge).1

/-- The sign of the area is the direction of winding. -/
theorem windsOnce_area {c : List Pt} : (WindsOnce 1 c → 0 < doubleArea c) ∧ (WindsOnce (-1) c → doubleArea c < 0) := by
  have e1 : ∀ q, polysWind [c] q = polyWind c q := by intro q; unfold polysWind; simp
  have e2 : totalArea [c] = doubleArea c := by unfold totalArea; simp
  have e3 : ∀ q, polysWind [] q = 0 := fun q => rfl
  have e4 : totalArea [] = 0 := rfl
  constructor
  · rintro ⟨h1, q, h2⟩
    have := (area_mono (l := []) (m := [c]) (by intro q; rw [e1, e3]; rcases h1 q with h | h <;> omega)).2
      ⟨q, by rw [e1, e3]; omega⟩
    rwa [e2, e4] at this
  · rintro ⟨h1, q, h2⟩
    have := (area_mono (l := [c]) (m := []) (by intro q; rw [e1, e3]; rcases h1 q with h | h <;> omega)).2
      ⟨q, by rw [e1, e3]; omega⟩
    rwa [e2, e4] at this

end IOverlay
