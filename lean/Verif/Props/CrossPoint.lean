/-
Properties C17 (accuracy of crossing points), C18 (128-bit division), C19 (no overflow).
-/
import Verif.DivLemmas
import Verif.Props.Cross

namespace IOverlay

/-! ### C18 -/

/-- Rounding half up of `n / d`. -/
def halfUp (n d : Nat) : Nat := (2 * n + d) / (2 * d)

/-- `halfUp` is the integer nearest to `n / d`, the larger one in case of a tie. -/
theorem halfUp_spec (n d : Nat) (hd : 0 < d) (k : Nat) :
    halfUp n d = k ↔ (2 * k * d ≤ 2 * n + d ∧ 2 * n + d < 2 * (k + 1) * d) := by
  unfold halfUp
  rw [Nat.div_eq_iff (by omega)]
  have e1 : 2 * k * d = k * (2 * d) := by ring
  have e2 : 2 * (k + 1) * d = k * (2 * d) + 2 * d := by ring
  rw [e1, e2]; omega

/-- C18, part: exactly what the division returns. Dividend below `2^64`: quotient rounded half up.
Otherwise the quotient is truncated (the remainder used for rounding is always zero). Missing from the
full claim: rounding of wide dividends - which is false of the code, see `C18_rounding_refuted`. -/
theorem C18_division_partial (n : Nat) (hn : n < 2 ^ 128) (d : Nat) (hd : 0 < d) (hd' : d < 2 ^ 63)
    (hfit : n / d < 2 ^ 64) :
    (divideWithRounding (U128.ofNat n) (BitVec.ofNat 64 d)).toNat =
      if n < 2 ^ 64 then halfUp n d else n / d := by
  have hdn : (BitVec.ofNat 64 d).toNat = d := by
    rw [BitVec.toNat_ofNat, Nat.mod_eq_of_lt (by omega)]
  have hun := U128.ofNat_toNat n hn
  have hhi : (U128.ofNat n).high.toNat = n / 2 ^ 64 := by
    unfold U128.ofNat; simp only [BitVec.toNat_ofNat]; omega
  split
  · next h =>
    have h0 : (U128.ofNat n).high = 0#64 := by
      apply BitVec.eq_of_toNat_eq; rw [hhi]; simp; omega
    rw [divide_narrow _ _ h0 (by rw [hdn]; exact hd) (by rw [hdn]; exact hd'), hun, hdn]; rfl
  · next h =>
    have hlt : n < d * 2 ^ 64 := by
      rw [Nat.div_lt_iff_lt_mul hd] at hfit; rw [Nat.mul_comm]; exact hfit
    rw [divide_wide _ _ (by rw [hhi]; omega) (by rw [hhi, hdn]; omega) (by rw [hdn]; exact hd'), hun,
      hdn]

/-- C18 is false of the code: `(2^64 + 1) / 2` should round up to `2^63 + 1`. -/
theorem C18_rounding_refuted : ∃ n d : Nat, n < 2 ^ 128 ∧ 0 < d ∧ d < 2 ^ 63 ∧ n / d + 1 < 2 ^ 64 ∧
    (divideWithRounding (U128.ofNat n) (BitVec.ofNat 64 d)).toNat ≠ halfUp n d := by
  refine ⟨2 ^ 64 + 1, 2, by decide, by decide, by decide, by decide, ?_⟩
  rw [C18_division_partial _ (by decide) _ (by decide) (by decide) (by decide)]
  decide

/-! ### C19 -/

/-- Documented range of coordinates, split/cross_solver.rs:211-212. -/
def InRange (p : Pt) : Prop := -2 ^ 30 < p.x ∧ p.x < 2 ^ 30 ∧ -2 ^ 30 < p.y ∧ p.y < 2 ^ 30

def FitsI64 (v : Int) : Prop := -2 ^ 63 ≤ v ∧ v < 2 ^ 63

theorem abs_mul_lt {a b A B : Int} (ha : -A < a ∧ a < A) (hb : -B < b ∧ b < B) :
    -(A * B) < a * b ∧ a * b < A * B := by
  have hA : |a| < A := abs_lt.2 ha
  have hB : |b| < B := abs_lt.2 hb
  have : |a * b| < A * B := by
    rw [abs_mul]
    exact mul_lt_mul'' hA hB (abs_nonneg _) (abs_nonneg _)
  exact abs_lt.1 this

theorem prod_diff_fits {a b c d : Int} (ha : -2 ^ 31 < a ∧ a < 2 ^ 31) (hb : -2 ^ 31 < b ∧ b < 2 ^ 31)
    (hc : -2 ^ 31 < c ∧ c < 2 ^ 31) (hd : -2 ^ 31 < d ∧ d < 2 ^ 31) :
    FitsI64 (a * b) ∧ FitsI64 (c * d) ∧ (-2 ^ 63 < a * b - c * d ∧ a * b - c * d < 2 ^ 63) ∧
    (-2 ^ 63 < a * b + c * d ∧ a * b + c * d < 2 ^ 63) := by
  have h1 := abs_mul_lt ha hb
  have h2 := abs_mul_lt hc hd
  unfold FitsI64
  norm_num at h1 h2 ⊢
  omega

/-- C19: with coordinates in the documented range every 64-bit intermediate of the orientation test,
of the collinear test (dot products), of the distances and of the crossing computation fits, the
divisor handed to the 128-bit division is below `2^63` and its factors fit 64 bits. -/
theorem C19_no_overflow (p q r s : Pt) (hp : InRange p) (hq : InRange q) (hr : InRange r)
    (hs : InRange s) :
    -- orientation of p q r
    FitsI64 ((q.x - p.x) * (q.y - r.y)) ∧ FitsI64 ((q.y - p.y) * (q.x - r.x)) ∧
    FitsI64 (area2 p q r) ∧
    -- dot product and squared distance
    FitsI64 (dot p q r s) ∧ FitsI64 (sqrDist p q) ∧
    -- crossing of target p q and other r s, split/cross_solver.rs:238-295
    FitsI64 (q.x - p.x) ∧ FitsI64 (q.y - p.y) ∧ FitsI64 (r.x - p.x) ∧ FitsI64 (r.y - p.y) ∧
    FitsI64 (s.x - p.x) ∧ FitsI64 (s.y - p.y) ∧
    FitsI64 ((r.x - p.x) * (s.y - p.y) - (r.y - p.y) * (s.x - p.x)) ∧
    FitsI64 (-((r.x - p.x) * (s.y - p.y) - (r.y - p.y) * (s.x - p.x))) ∧
    FitsI64 ((q.y - p.y) * ((r.x - p.x) - (s.x - p.x)) - (q.x - p.x) * ((r.y - p.y) - (s.y - p.y))) ∧
    ((q.y - p.y) * ((r.x - p.x) - (s.x - p.x)) -
      (q.x - p.x) * ((r.y - p.y) - (s.y - p.y))).natAbs < 2 ^ 63 ∧
    (q.x - p.x).natAbs * ((r.x - p.x) * (s.y - p.y) - (r.y - p.y) * (s.x - p.x)).natAbs < 2 ^ 128 ∧
    (q.y - p.y).natAbs * ((r.x - p.x) * (s.y - p.y) - (r.y - p.y) * (s.x - p.x)).natAbs < 2 ^ 128 := by
  obtain ⟨p1, p2, p3, p4⟩ := hp
  obtain ⟨q1, q2, q3, q4⟩ := hq
  obtain ⟨r1, r2, r3, r4⟩ := hr
  obtain ⟨s1, s2, s3, s4⟩ := hs
  have a := prod_diff_fits (a := q.x - p.x) (b := q.y - r.y) (c := q.y - p.y) (d := q.x - r.x)
    (by omega) (by omega) (by omega) (by omega)
  have b := prod_diff_fits (a := p.x - q.x) (b := r.x - s.x) (c := p.y - q.y) (d := r.y - s.y)
    (by omega) (by omega) (by omega) (by omega)
  have c := prod_diff_fits (a := p.x - q.x) (b := p.x - q.x) (c := p.y - q.y) (d := p.y - q.y)
    (by omega) (by omega) (by omega) (by omega)
  have d := prod_diff_fits (a := r.x - p.x) (b := s.y - p.y) (c := r.y - p.y) (d := s.x - p.x)
    (by omega) (by omega) (by omega) (by omega)
  have e := prod_diff_fits (a := q.y - p.y) (b := (r.x - p.x) - (s.x - p.x)) (c := q.x - p.x)
    (d := (r.y - p.y) - (s.y - p.y)) (by omega) (by omega) (by omega) (by omega)
  have nat : ∀ m n : Int, (-2 ^ 31 < m ∧ m < 2 ^ 31) → (-2 ^ 63 < n ∧ n < 2 ^ 63) →
      m.natAbs * n.natAbs < 2 ^ 128 := by
    intro m n hm hn
    have h1 : m.natAbs ≤ 2 ^ 31 := by omega
    have h2 : n.natAbs ≤ 2 ^ 63 := by omega
    calc m.natAbs * n.natAbs ≤ 2 ^ 31 * 2 ^ 63 := Nat.mul_le_mul h1 h2
      _ < 2 ^ 128 := by norm_num
  refine ⟨a.1, a.2.1, ⟨a.2.2.1.1.le, a.2.2.1.2⟩, ⟨b.2.2.2.1.le, b.2.2.2.2⟩,
    ⟨c.2.2.2.1.le, c.2.2.2.2⟩, ?_, ?_, ?_, ?_, ?_, ?_, ⟨d.2.2.1.1.le, d.2.2.1.2⟩, ?_,
    ⟨e.2.2.1.1.le, e.2.2.1.2⟩, ?_, nat _ _ (by omega) d.2.2.1, nat _ _ (by omega) d.2.2.1⟩
  all_goals first
    | (unfold FitsI64; omega)
    | (have := d.2.2.1; unfold FitsI64; omega)
    | (have := e.2.2.1; omega)

/-- The bound is sharp: with coordinates of absolute value exactly `2^30` the divisor may reach
`2^63`, which does not fit an `i64`. -/
theorem C19_bound_sharp : ∃ p q r s : Pt,
    (∀ v ∈ [p, q, r, s], |v.x| ≤ 2 ^ 30 ∧ |v.y| ≤ 2 ^ 30) ∧
    ¬ FitsI64 ((q.y - p.y) * ((r.x - p.x) - (s.x - p.x)) -
      (q.x - p.x) * ((r.y - p.y) - (s.y - p.y))) := by
  refine ⟨⟨-2 ^ 30, 2 ^ 30⟩, ⟨2 ^ 30, -2 ^ 30⟩, ⟨-2 ^ 30, -2 ^ 30⟩, ⟨2 ^ 30, 2 ^ 30⟩, ?_, ?_⟩
  · intro v hv
    simp only [List.mem_cons, List.not_mem_nil, or_false] at hv
    rcases hv with rfl | rfl | rfl | rfl <;> norm_num
  · unfold FitsI64; norm_num

example : InRange ⟨2 ^ 30 - 1, -(2 ^ 30 - 1)⟩ := by unfold InRange; norm_num

/-! ### C17 -/

theorem wideDiv_error {a x d : Int} (ha : a.natAbs < 2 ^ 64) (hxd : x.natAbs < d.natAbs)
    (hd : d.natAbs < 2 ^ 63) :
    abs (wideDiv a x d * abs d - abs a * abs x) < |d| := by
  have hd0 : 0 < d.natAbs := by omega
  have hnn : a.natAbs * x.natAbs < d.natAbs * 2 ^ 64 := by
    calc a.natAbs * x.natAbs = x.natAbs * a.natAbs := Nat.mul_comm _ _
      _ ≤ x.natAbs * 2 ^ 64 := Nat.mul_le_mul_left _ ha.le
      _ < d.natAbs * 2 ^ 64 := Nat.mul_lt_mul_of_pos_right hxd (by decide)
  have hn : a.natAbs * x.natAbs < 2 ^ 128 := by
    have : d.natAbs * 2 ^ 64 < 2 ^ 63 * 2 ^ 64 := Nat.mul_lt_mul_of_pos_right hd (by decide)
    omega
  have hq := C18_division_partial (a.natAbs * x.natAbs) hn d.natAbs hd0 hd
    (by rw [Nat.div_lt_iff_lt_mul hd0, Nat.mul_comm (2 ^ 64)]; exact hnn)
  unfold wideDiv
  rw [Int.abs_eq_natAbs d, Int.abs_eq_natAbs a, Int.abs_eq_natAbs x]
  generalize hw : (divideWithRounding (U128.ofNat (a.natAbs * x.natAbs))
    (BitVec.ofNat 64 d.natAbs)).toNat = w at *
  have key : w * d.natAbs < a.natAbs * x.natAbs + d.natAbs ∧
      a.natAbs * x.natAbs < w * d.natAbs + d.natAbs := by
    generalize a.natAbs * x.natAbs = n at *
    split at hq
    · have := (halfUp_spec n d.natAbs hd0 w).1 hq.symm
      have e1 : 2 * w * d.natAbs = 2 * (w * d.natAbs) := by ring
      have e2 : 2 * (w + 1) * d.natAbs = 2 * (w * d.natAbs) + 2 * d.natAbs := by ring
      omega
    · rw [hq]
      have := Nat.div_add_mod n d.natAbs
      have := Nat.mod_lt n hd0
      have e : n / d.natAbs * d.natAbs = d.natAbs * (n / d.natAbs) := by ring
      omega
  rw [abs_lt]
  constructor <;> (have := key.1; have := key.2; zify at *; linarith)

theorem err_of_int {n m d x : Int} {τ : ℚ} (h : τ * d = x) (he : |n * d - m * x| < |d|) :
    |(n : ℚ) - m * τ| < 1 := by
  have hd : (0 : ℚ) < |(d : ℚ)| := by
    have : (0:Int) < |d| := lt_of_le_of_lt (abs_nonneg _) he
    exact_mod_cast this
  have he' : |(n : ℚ) * d - m * x| < |(d : ℚ)| := by exact_mod_cast he
  rw [← h] at he'
  have e : (n : ℚ) * d - m * (τ * d) = (n - m * τ) * d := by ring
  rw [e, abs_mul] at he'
  by_contra hc
  have := mul_le_mul_of_nonneg_right (not_lt.1 hc) hd.le
  linarith

theorem tdiv_error (x d : Int) (hd : d ≠ 0) : |x.tdiv d * d - x| < |d| := by
  have h1 := Int.mul_tdiv_add_tmod x d
  have e : x.tdiv d * d - x = -(x.tmod d) := by linear_combination h1
  rw [e, abs_neg]
  have := Int.natAbs_tmod x d
  have h2 : x.natAbs % d.natAbs < d.natAbs := Nat.mod_lt _ (by omega)
  rw [Int.abs_eq_natAbs, Int.abs_eq_natAbs]
  rw [← this] at h2
  exact_mod_cast h2

/-- The true crossing point `P` and the computed one. -/
theorem crossPoint_error {t o : XSeg} (h2 : Opp (area2 o.a o.b t.a) (area2 o.a o.b t.b))
    (r1 : InRange t.a) (r2 : InRange t.b) (r3 : InRange o.a) (r4 : InRange o.b)
    {P : QPt} (hP1 : inSeg P t.a t.b) (hP2 : inSeg P o.a o.b) :
    |((crossPoint t o).x : ℚ) - P.x| < 1 ∧ |((crossPoint t o).y : ℚ) - P.y| < 1 := by
  have ov := C19_no_overflow t.a t.b o.a o.b r1 r2 r3 r4
  obtain ⟨τ, _, _, hx, hy⟩ := hP1
  obtain ⟨u, _, _, hu⟩ := hP2
  have hq := qarea_param (a := o.a) (b := o.b) (c := t.a) (d := t.b) (p := P) (t := τ) ⟨hx, hy⟩
  rw [qarea_self hu] at hq
  -- names
  obtain ⟨a1x, ha1x⟩ : ∃ v, v = t.b.x - t.a.x := ⟨_, rfl⟩
  obtain ⟨a1y, ha1y⟩ : ∃ v, v = t.b.y - t.a.y := ⟨_, rfl⟩
  obtain ⟨dx, hdx⟩ : ∃ v, v = (o.a.x - t.a.x) - (o.b.x - t.a.x) := ⟨_, rfl⟩
  obtain ⟨dy, hdy⟩ : ∃ v, v = (o.a.y - t.a.y) - (o.b.y - t.a.y) := ⟨_, rfl⟩
  obtain ⟨xy, hxy⟩ : ∃ v, v = (o.a.x - t.a.x) * (o.b.y - t.a.y) -
    (o.a.y - t.a.y) * (o.b.x - t.a.x) := ⟨_, rfl⟩
  have e0 : area2 o.a o.b t.a = - xy := by rw [hxy]; unfold area2; ring
  have e1 : area2 o.a o.b t.b = (a1y * dx - a1x * dy) - xy := by
    rw [hxy, ha1x, ha1y, hdx, hdy]; unfold area2; ring
  have hτ : τ * ((a1y * dx - a1x * dy : Int) : ℚ) = (xy : Int) := by
    rw [e0, e1] at hq; push_cast at hq ⊢; linear_combination -hq
  rw [e0, e1] at h2
  have hx' : P.x = t.a.x + a1x * τ := by rw [hx, ha1x]; push_cast; ring
  have hy' : P.y = t.a.y + a1y * τ := by rw [hy, ha1y]; push_cast; ring
  have hdivne : a1y * dx - a1x * dy ≠ 0 := by unfold Opp at h2; omega
  have goal : ∀ n m : Int, |(n : ℚ) - m * τ| < 1 → ∀ c : Int,
      |((n + c : Int) : ℚ) - (c + m * τ)| < 1 := by
    intro n m h c; push_cast; rw [show (n : ℚ) + c - (c + m * τ) = n - m * τ by ring]; exact h
  rw [hx', hy']
  unfold crossPoint
  simp only [← ha1x, ← ha1y, ← hdx, ← hdy, ← hxy]
  split
  · next hz =>
    rw [hz] at hdivne hτ
    have hdx0 : dx ≠ 0 := by rintro rfl; simp at hdivne
    refine ⟨?_, ?_⟩
    · apply goal; rw [hz]; norm_num
    · apply goal
      have hr : (a1y * τ) * (dx : ℚ) = ((xy : Int) : ℚ) := by
        rw [← hτ]; push_cast; ring
      have := err_of_int (n := xy.tdiv dx) (m := 1) hr (by
        rw [one_mul]; exact tdiv_error xy dx hdx0)
      simpa using this
  · split
    · next hz =>
      rw [hz] at hdivne hτ
      have hdy0 : dy ≠ 0 := by rintro rfl; simp at hdivne
      refine ⟨?_, ?_⟩
      · apply goal
        have hr : (a1x * τ) * (dy : ℚ) = ((-xy : Int) : ℚ) := by
          have := hτ; push_cast at this ⊢; linear_combination -this
        have := err_of_int (n := (-xy).tdiv dy) (m := 1) hr (by
          rw [one_mul]; exact tdiv_error (-xy) dy hdy0)
        simpa using this
      · apply goal; rw [hz]; norm_num
    · next hz1 hz2 =>
      have hdl : (a1y * dx - a1x * dy).natAbs < 2 ^ 63 := by
        rw [ha1y, ha1x, hdx, hdy]; exact ov.2.2.2.2.2.2.2.2.2.2.2.2.2.2.1
      obtain ⟨div, hdiv⟩ : ∃ v, v = a1y * dx - a1x * dy := ⟨_, rfl⟩
      rw [← hdiv] at h2 hdl hτ hdivne ⊢
      have hs : div.sign * xy.sign = 1 := by
        rcases h2 with ⟨g1, g2⟩ | ⟨g1, g2⟩
        · rw [Int.sign_eq_one_of_pos (by omega), Int.sign_eq_one_of_pos (by omega)]; rfl
        · rw [Int.sign_eq_neg_one_of_neg (by omega), Int.sign_eq_neg_one_of_neg (by omega)]; rfl
      have hlt : xy.natAbs < div.natAbs := by unfold Opp at h2; omega
      have main : ∀ m : Int, m.natAbs < 2 ^ 64 →
          |((m.sign * (div.sign * xy.sign) * wideDiv m xy div : Int) : ℚ) - m * τ| < 1 := by
        intro m hm
        apply err_of_int hτ
        rw [hs, mul_one]
        have we := wideDiv_error hm hlt hdl
        have sm := Int.sign_mul_abs m
        have hσ : ∃ σ : Int, |σ| = 1 ∧ div = σ * |div| ∧ xy = σ * |xy| := by
          rcases h2 with ⟨g1, g2⟩ | ⟨g1, g2⟩
          · exact ⟨1, by simp, by rw [abs_of_pos (by omega)]; ring, by rw [abs_of_pos (by omega)]; ring⟩
          · exact ⟨-1, by simp, by rw [abs_of_neg (by omega)]; ring, by rw [abs_of_neg (by omega)]; ring⟩
        obtain ⟨σ, hσ1, hσ2, hσ3⟩ := hσ
        have e : m.sign * wideDiv m xy div * div - m * xy =
            (m.sign * σ) * (wideDiv m xy div * |div| - |m| * |xy|) := by
          calc m.sign * wideDiv m xy div * div - m * xy
              = m.sign * wideDiv m xy div * (σ * |div|) - (m.sign * |m|) * (σ * |xy|) := by
                rw [← hσ2, ← hσ3, sm]
            _ = _ := by ring
        rw [e, abs_mul, abs_mul, hσ1, mul_one]
        have hsl : |m.sign| ≤ 1 := by
          rcases sign_cases m with ⟨_, h⟩ | ⟨_, h⟩ | ⟨_, h⟩ <;> rw [h] <;> simp
        calc |m.sign| * abs (wideDiv m xy div * abs div - abs m * abs xy)
            ≤ 1 * abs (wideDiv m xy div * abs div - abs m * abs xy) :=
              mul_le_mul_of_nonneg_right hsl (abs_nonneg _)
          _ < |div| := by rw [one_mul]; exact we
      obtain ⟨p1, p2, p3, p4⟩ := r1
      obtain ⟨q1, q2, q3, q4⟩ := r2
      exact ⟨goal _ _ (main a1x (by omega)) _, goal _ _ (main a1y (by omega)) _⟩

/-- C17: for a proper crossing (the end points of each edge strictly on different sides of the other)
with coordinates in the documented range, there is a unique common point `P`, and the computed
integer point differs from it by less than one unit in each coordinate, lies in the bounding boxes of
both edges (hence in the documented range), and equals `P` whenever `P` is an integer point. -/
theorem C17_crossing_accuracy (t o : XSeg) (h1 : Opp (area2 t.a t.b o.a) (area2 t.a t.b o.b))
    (h2 : Opp (area2 o.a o.b t.a) (area2 o.a o.b t.b))
    (r1 : InRange t.a) (r2 : InRange t.b) (r3 : InRange o.a) (r4 : InRange o.b) :
    ∃ P : QPt, inSeg P t.a t.b ∧ inSeg P o.a o.b ∧
      (∀ P', onSeg P' t.a t.b → onSeg P' o.a o.b → P' = P) ∧
      |((crossPoint t o).x : ℚ) - P.x| < 1 ∧ |((crossPoint t o).y : ℚ) - P.y| < 1 ∧
      (∀ e ∈ [t, o], min e.a.x e.b.x ≤ (crossPoint t o).x ∧ (crossPoint t o).x ≤ max e.a.x e.b.x ∧
        min e.a.y e.b.y ≤ (crossPoint t o).y ∧ (crossPoint t o).y ≤ max e.a.y e.b.y) ∧
      (∀ p : Pt, P = p.q → crossPoint t o = p) := by
  have ho : o.a ≠ o.b := by
    intro e; rw [e, area2_self_mid, area2_self_mid] at h2; unfold Opp at h2; omega
  obtain ⟨P, hP1, hP2⟩ := exists_cross_of_opp ho h1 h2
  have hn : ¬ (area2 t.a t.b o.a = 0 ∧ area2 t.a t.b o.b = 0) := by unfold Opp at h1; omega
  obtain ⟨ex, ey⟩ := crossPoint_error h2 r1 r2 r3 r4 hP1 hP2
  refine ⟨P, hP1, hP2, fun P' a b => common_unique hn a b hP1.on hP2.on, ex, ey, ?_, ?_⟩
  · have box : ∀ (n m k : Int) (v : ℚ), |(n : ℚ) - v| < 1 →
        (∃ τ : ℚ, 0 < τ ∧ τ < 1 ∧ v = m + τ * (k - m)) → min m k ≤ n ∧ n ≤ max m k := by
      rintro n m k v hv ⟨τ, t0, t1, hτ⟩
      rw [abs_lt] at hv
      have l : ((min m k : Int) : ℚ) ≤ v ∧ v ≤ ((max m k : Int) : ℚ) := by
        rcases le_total m k with h | h
        · rw [min_eq_left h, max_eq_right h, hτ]
          have h' : (m : ℚ) ≤ k := by exact_mod_cast h
          constructor <;> nlinarith
        · rw [min_eq_right h, max_eq_left h, hτ]
          have h' : (k : ℚ) ≤ m := by exact_mod_cast h
          constructor <;> nlinarith
      have g1 : ((min m k : Int) : ℚ) < n + 1 := by linarith
      have g2 : (n : ℚ) < ((max m k : Int) : ℚ) + 1 := by linarith
      have g1 : min m k < n + 1 := by exact_mod_cast g1
      have g2 : n < max m k + 1 := by exact_mod_cast g2
      omega
    intro e he
    have : inSeg P e.a e.b := by
      simp only [List.mem_cons, List.not_mem_nil, or_false] at he
      rcases he with rfl | rfl <;> assumption
    obtain ⟨τ, t0, t1, tx, ty⟩ := this
    have bx := box _ e.a.x e.b.x P.x ex ⟨τ, t0, t1, tx⟩
    have byy := box _ e.a.y e.b.y P.y ey ⟨τ, t0, t1, ty⟩
    exact ⟨bx.1, bx.2, byy.1, byy.2⟩
  · rintro p rfl
    have z : ∀ n m : Int, |(n : ℚ) - m| < 1 → n = m := by
      intro n m h
      have : |n - m| < 1 := by exact_mod_cast h
      have := abs_lt.1 this
      omega
    rw [Pt.ext_iff']
    exact ⟨z _ _ ex, z _ _ ey⟩

/-- C17, the sharper bound for exactly computed products (below `2^64`): at most half a unit. -/
theorem C17_half_unit (a x d : Int) (hd : d ≠ 0) (hd' : d.natAbs < 2 ^ 63)
    (hn : a.natAbs * x.natAbs < 2 ^ 64) :
    2 * abs (wideDiv a x d * abs d - abs a * abs x) ≤ |d| := by
  have hd0 : 0 < d.natAbs := by omega
  have hq := C18_division_partial (a.natAbs * x.natAbs) (by omega) d.natAbs hd0 hd'
    (lt_of_le_of_lt (Nat.div_le_self _ _) hn)
  rw [if_pos hn] at hq
  unfold wideDiv
  rw [Int.abs_eq_natAbs d, Int.abs_eq_natAbs a, Int.abs_eq_natAbs x]
  generalize hw : (divideWithRounding (U128.ofNat (a.natAbs * x.natAbs))
    (BitVec.ofNat 64 d.natAbs)).toNat = w at *
  have := (halfUp_spec _ d.natAbs hd0 w).1 hq.symm
  have e1 : 2 * w * d.natAbs = 2 * (w * d.natAbs) := by ring
  have e2 : 2 * (w + 1) * d.natAbs = 2 * (w * d.natAbs) + 2 * d.natAbs := by ring
  rw [e1, e2] at this
  have hc : ∀ z : Int, -(d.natAbs : Int) ≤ 2 * z → 2 * z ≤ d.natAbs → 2 * |z| ≤ (d.natAbs : Int) := by
    intro z h1 h2; rcases abs_cases z with ⟨h, _⟩ | ⟨h, _⟩ <;> rw [h] <;> linarith
  obtain ⟨t1, t2⟩ := this
  have t1' : (2 * ((w : Int) * d.natAbs) : Int) ≤ 2 * (a.natAbs * x.natAbs) + d.natAbs := by exact_mod_cast t1
  have t2' : (2 * ((a.natAbs : Int) * x.natAbs) + d.natAbs : Int) < 2 * ((w : Int) * d.natAbs) + 2 * d.natAbs := by
    exact_mod_cast t2
  apply hc <;> linarith

/-- The hypotheses of C17 are met by a non-integer crossing. -/
example : Opp (area2 ⟨0, 0⟩ ⟨5, 3⟩ ⟨0, 3⟩) (area2 ⟨0, 0⟩ ⟨5, 3⟩ ⟨4, 0⟩) ∧
    Opp (area2 ⟨0, 3⟩ ⟨4, 0⟩ ⟨0, 0⟩) (area2 ⟨0, 3⟩ ⟨4, 0⟩ ⟨5, 3⟩) ∧
    crossPoint ⟨⟨0, 0⟩, ⟨5, 3⟩⟩ ⟨⟨0, 3⟩, ⟨4, 0⟩⟩ = ⟨2, 1⟩ := by
  unfold Opp; decide +kernel

end IOverlay
