/- The shift-subtract division. -/
import Verif.Cross
import Mathlib.Tactic.Ring
import Mathlib.Tactic.Linarith

namespace IOverlay

theorem shl1_or_toNat (h l : BitVec 64) :
    ((h <<< 1) ||| (l >>> 63)).toNat = (2 * h.toNat) % 2 ^ 64 + l.toNat / 2 ^ 63 := by
  have hl := l.isLt
  have hh := h.isLt
  rw [BitVec.toNat_or, BitVec.toNat_shiftLeft, BitVec.toNat_ushiftRight, Nat.shiftRight_eq_div_pow,
    Nat.shiftLeft_eq]
  have hb : l.toNat / 2 ^ 63 < 2 ^ 1 := by omega
  have e : h.toNat * 2 ^ 1 % 2 ^ 64 = ((h.toNat % 2 ^ 63)) <<< 1 := by
    rw [Nat.shiftLeft_eq]; omega
  rw [e, ← Nat.shiftLeft_add_eq_or_of_lt hb, Nat.shiftLeft_eq]
  omega

theorem shl1_or1_toNat (q : BitVec 64) (hq : q.toNat < 2 ^ 63) :
    ((q <<< 1) ||| 1#64).toNat = 2 * q.toNat + 1 := by
  rw [BitVec.toNat_or, BitVec.toNat_shiftLeft, Nat.shiftLeft_eq]
  have e : q.toNat * 2 ^ 1 % 2 ^ 64 = q.toNat <<< 1 := by rw [Nat.shiftLeft_eq]; omega
  rw [e, ← Nat.shiftLeft_add_eq_or_of_lt (by decide), Nat.shiftLeft_eq]
  simp; omega

theorem topBit (h : BitVec 64) : ((h &&& (1#64 <<< 63)) != 0#64) = decide (2 ^ 63 ≤ h.toNat) := by
  have h1 : (h &&& (1#64 <<< 63)) != 0#64 ↔ h.msb = true := by
    rw [bne_iff_ne, ne_eq, ← BitVec.toNat_inj]
    constructor
    · intro hn
      by_contra hm
      apply hn
      rw [BitVec.toNat_inj]
      apply BitVec.eq_of_getLsbD_eq
      intro i hi
      rw [BitVec.getLsbD_and]
      have : (1#64 <<< 63).getLsbD i = decide (i = 63) := by
        have : i < 64 := hi
        revert i; decide
      rw [this]
      by_cases hi3 : i = 63
      · subst hi3
        rw [BitVec.msb_eq_getLsbD_last] at hm
        simp at hm ⊢; simpa using hm
      · simp [hi3]
    · intro hm hz
      rw [BitVec.toNat_inj] at hz
      have := congrArg (fun v => v.getLsbD 63) hz
      simp only [BitVec.getLsbD_and] at this
      rw [BitVec.msb_eq_getLsbD_last] at hm
      have h63 : h.getLsbD 63 = true := hm
      rw [h63] at this
      revert this; decide
  rw [Bool.eq_iff_iff, h1, BitVec.msb_eq_decide]

/-- One step in natural numbers. -/
theorem divStep_spec (D h l q : BitVec 64) (hD : 2 ^ 63 ≤ D.toNat) (hh : h.toNat < D.toNat)
    (hq : q.toNat < 2 ^ 63) :
    let r := divStep D (h, l, q)
    let full := 2 * h.toNat + l.toNat / 2 ^ 63
    let b := if full ≥ D.toNat then 1 else 0
    r.1.toNat = full - b * D.toNat ∧ r.2.1.toNat = (2 * l.toNat) % 2 ^ 64 ∧
      r.2.2.toNat = 2 * q.toNat + b ∧ r.1.toNat < D.toNat := by
  intro r full b
  have hDl := D.isLt
  have hl := l.isLt
  have hc : (decide (((h <<< 1) ||| (l >>> 63)) ≥ D) || ((h &&& (1#64 <<< 63)) != 0#64)) =
      decide (full ≥ D.toNat) := by
    rw [topBit, ← Bool.decide_or, decide_eq_decide, ge_iff_le, BitVec.le_def, shl1_or_toNat]
    show _ ↔ 2 * h.toNat + l.toNat / 2 ^ 63 ≥ D.toNat
    omega
  have e2 : (l <<< 1).toNat = (2 * l.toNat) % 2 ^ 64 := by
    rw [BitVec.toNat_shiftLeft, Nat.shiftLeft_eq]; omega
  have e3 : (q <<< 1).toNat = 2 * q.toNat := by
    rw [BitVec.toNat_shiftLeft, Nat.shiftLeft_eq]; omega
  by_cases hf : full ≥ D.toNat
  · have hr : r = (((h <<< 1) ||| (l >>> 63)) - D, l <<< 1, (q <<< 1) ||| 1#64) := by
      show divStep D (h, l, q) = _
      unfold divStep
      simp only
      rw [hc, if_pos (by simpa using hf)]
    have hb : b = 1 := if_pos hf
    rw [hr, hb]
    have hx : (((h <<< 1) ||| (l >>> 63)) - D).toNat = full - D.toNat := by
      rw [BitVec.toNat_sub, shl1_or_toNat]
      show _ = 2 * h.toNat + l.toNat / 2 ^ 63 - D.toNat
      have : 2 * h.toNat + l.toNat / 2 ^ 63 ≥ D.toNat := hf
      omega
    refine ⟨?_, e2, shl1_or1_toNat q hq, ?_⟩
    · rw [Nat.one_mul]; exact hx
    · refine hx.symm ▸ ?_
      show 2 * h.toNat + l.toNat / 2 ^ 63 - D.toNat < _; omega
  · have hr : r = ((h <<< 1) ||| (l >>> 63), l <<< 1, q <<< 1) := by
      show divStep D (h, l, q) = _
      unfold divStep
      simp only
      rw [hc, if_neg (by simpa using hf)]
    have hb : b = 0 := if_neg hf
    rw [hr, hb]
    have hx : ((h <<< 1) ||| (l >>> 63)).toNat = full := by
      rw [shl1_or_toNat]
      show _ = 2 * h.toNat + l.toNat / 2 ^ 63
      have : ¬ 2 * h.toNat + l.toNat / 2 ^ 63 ≥ D.toNat := hf
      omega
    refine ⟨?_, e2, ?_, ?_⟩
    · rw [Nat.zero_mul, Nat.sub_zero]; exact hx
    · rw [Nat.add_zero]; exact e3
    · exact hx.symm ▸ not_le.1 hf

theorem divLoop_spec (D : BitVec 64) (hD : 2 ^ 63 ≤ D.toNat) (n : Nat) :
    ∀ (k : Nat) (h l q : BitVec 64), k + n ≤ 64 → h.toNat < D.toNat → q.toNat < 2 ^ k →
    let r := divLoop D n (h, l, q)
    r.1.toNat < D.toNat ∧ r.2.2.toNat < 2 ^ (k + n) ∧ r.2.1.toNat = (2 ^ n * l.toNat) % 2 ^ 64 ∧
    r.1.toNat * 2 ^ 64 + r.2.1.toNat + (r.2.2.toNat * D.toNat) * 2 ^ 64 =
      2 ^ n * (h.toNat * 2 ^ 64 + l.toNat) + (2 ^ n * (q.toNat * D.toNat)) * 2 ^ 64 := by
  induction n with
  | zero =>
    intro k h l q hk hh hq
    have := l.isLt
    simp only [divLoop]
    refine ⟨hh, by simpa using hq, ?_, by ring⟩
    rw [Nat.pow_zero, Nat.one_mul, Nat.mod_eq_of_lt this]
  | succ n ih =>
    intro k h l q hk hh hq
    have hk63 : (2:Nat) ^ k ≤ 2 ^ 63 := Nat.pow_le_pow_right (by decide) (by omega)
    obtain ⟨s1, s2, s3, s4⟩ := divStep_spec D h l q hD hh (by omega)
    generalize hst : divStep D (h, l, q) = st at s1 s2 s3 s4
    obtain ⟨h', l', q'⟩ := st
    simp only at s1 s2 s3 s4
    generalize hbb : (if 2 * h.toNat + l.toNat / 2 ^ 63 ≥ D.toNat then 1 else 0) = b at s1 s3
    have hb1 : b ≤ 1 := by rw [← hbb]; split <;> omega
    have hbD : b * D.toNat ≤ 2 * h.toNat + l.toNat / 2 ^ 63 := by
      rw [← hbb]; split <;> omega
    obtain ⟨i1, i2, i3, i4⟩ := ih (k + 1) h' l' q' (by omega) s4 (by rw [s3, Nat.pow_succ]; omega)
    simp only [divLoop]
    rw [hst]
    have hl := l.isLt
    refine ⟨i1, by rw [show k + (n + 1) = k + 1 + n by omega]; exact i2, ?_, ?_⟩
    · rw [i3, s2, Nat.mul_mod_mod]; congr 1; rw [Nat.pow_succ]; ring
    · rw [i4, s3]
      have e1 : h'.toNat * 2 ^ 64 + l'.toNat + b * D.toNat * 2 ^ 64 =
          2 * (h.toNat * 2 ^ 64 + l.toNat) := by
        rw [s1, s2]
        clear i1 i2 i3 i4 ih hq hk63 s3 s1 s2 s4 hbb
        generalize b * D.toNat = m at hbD ⊢
        generalize h.toNat = x at hbD ⊢
        generalize l.toNat = y at hbD hl ⊢
        omega
      have : 2 ^ n * (h'.toNat * 2 ^ 64 + l'.toNat) + 2 ^ n * ((2 * q.toNat + b) * D.toNat) * 2 ^ 64
          = 2 ^ n * (h'.toNat * 2 ^ 64 + l'.toNat + b * D.toNat * 2 ^ 64)
            + 2 ^ n * (2 * (q.toNat * D.toNat)) * 2 ^ 64 := by ring
      rw [this, e1, Nat.pow_succ]; ring

theorem log2_bounds (d : Nat) (hd : 0 < d) : 2 ^ d.log2 ≤ d ∧ d < 2 ^ (d.log2 + 1) :=
  ⟨Nat.log2_self_le (by omega), Nat.lt_log2_self⟩

/-- The normalisation shift. -/
theorem norm_divisor (d : BitVec 64) (h0 : 0 < d.toNat) (h1 : d.toNat < 2 ^ 63) :
    1 ≤ leadingZeros d ∧ leadingZeros d ≤ 63 ∧
    (d <<< leadingZeros d).toNat = d.toNat * 2 ^ leadingZeros d ∧
    2 ^ 63 ≤ d.toNat * 2 ^ leadingZeros d ∧ d.toNat * 2 ^ leadingZeros d < 2 ^ 64 := by
  obtain ⟨b1, b2⟩ := log2_bounds d.toNat h0
  have hlog : d.toNat.log2 ≤ 62 := by
    by_contra hc
    have : (2:Nat) ^ 63 ≤ 2 ^ d.toNat.log2 := Nat.pow_le_pow_right (by decide) (by omega)
    omega
  unfold leadingZeros
  have e1 : (2:Nat) ^ 63 = 2 ^ d.toNat.log2 * 2 ^ (63 - d.toNat.log2) := by
    rw [← Nat.pow_add]; congr 1; omega
  have e2 : (2:Nat) ^ 64 = 2 ^ (d.toNat.log2 + 1) * 2 ^ (63 - d.toNat.log2) := by
    rw [← Nat.pow_add]; congr 1; omega
  have hp : 0 < (2:Nat) ^ (63 - d.toNat.log2) := Nat.two_pow_pos _
  have l1 : 2 ^ 63 ≤ d.toNat * 2 ^ (63 - d.toNat.log2) := by
    rw [e1]; exact Nat.mul_le_mul_right _ b1
  have l2 : d.toNat * 2 ^ (63 - d.toNat.log2) < 2 ^ 64 := by
    rw [e2]; exact Nat.mul_lt_mul_of_pos_right b2 hp
  refine ⟨by omega, by omega, ?_, l1, l2⟩
  rw [BitVec.toNat_shiftLeft, Nat.shiftLeft_eq, Nat.mod_eq_of_lt l2]

/-- Normalised dividend. -/
theorem norm_dividend (hi lo : BitVec 64) (k : Nat) (hk : 1 ≤ k) (hk' : k ≤ 63)
    (hf : hi.toNat * 2 ^ k < 2 ^ 64) :
    ((hi <<< k) ||| (lo >>> (64 - k))).toNat * 2 ^ 64 + (lo <<< k).toNat =
      (hi.toNat * 2 ^ 64 + lo.toNat) * 2 ^ k := by
  have hl := lo.isLt
  have hpk : (2:Nat) ^ 64 = 2 ^ k * 2 ^ (64 - k) := by rw [← Nat.pow_add]; congr 1; omega
  have hlt : lo.toNat / 2 ^ (64 - k) < 2 ^ k := by
    rw [Nat.div_lt_iff_lt_mul (Nat.two_pow_pos _), ← hpk]; exact hl
  have hf' : hi.toNat * 2 ^ k + lo.toNat / 2 ^ (64 - k) < 2 ^ 64 := by
    have : hi.toNat * 2 ^ k + 2 ^ k ≤ 2 ^ 64 := by
      rw [hpk] at hf ⊢
      have h1 : hi.toNat < 2 ^ (64 - k) := by
        rw [Nat.mul_comm] at hf
        exact lt_of_mul_lt_mul_left hf (Nat.zero_le _)
      calc hi.toNat * 2 ^ k + 2 ^ k = 2 ^ k * (hi.toNat + 1) := by ring
        _ ≤ 2 ^ k * 2 ^ (64 - k) := Nat.mul_le_mul_left _ h1
    omega
  have e1 : ((hi <<< k) ||| (lo >>> (64 - k))).toNat = hi.toNat * 2 ^ k + lo.toNat / 2 ^ (64 - k) := by
    rw [BitVec.toNat_or, BitVec.toNat_shiftLeft, BitVec.toNat_ushiftRight,
      Nat.shiftRight_eq_div_pow]
    have : hi.toNat <<< k % 2 ^ 64 = hi.toNat <<< k := by
      rw [Nat.shiftLeft_eq, Nat.mod_eq_of_lt hf]
    rw [this, ← Nat.shiftLeft_add_eq_or_of_lt hlt, Nat.shiftLeft_eq]
  have e2 : (lo <<< k).toNat = (lo.toNat % 2 ^ (64 - k)) * 2 ^ k := by
    rw [BitVec.toNat_shiftLeft, Nat.shiftLeft_eq, hpk, Nat.mul_comm (2 ^ k), Nat.mul_mod_mul_right]
  rw [e1, e2]
  have := Nat.div_add_mod lo.toNat (2 ^ (64 - k))
  calc (hi.toNat * 2 ^ k + lo.toNat / 2 ^ (64 - k)) * 2 ^ 64 + lo.toNat % 2 ^ (64 - k) * 2 ^ k
      = hi.toNat * 2 ^ 64 * 2 ^ k + (2 ^ (64 - k) * (lo.toNat / 2 ^ (64 - k)) +
          lo.toNat % 2 ^ (64 - k)) * 2 ^ k := by rw [hpk]; ring
    _ = _ := by rw [this]; ring

/-- In the wide branch the result is the truncated quotient. -/
theorem divide_wide (u : U128) (d : BitVec 64) (h0 : 0 < u.high.toNat)
    (hfit : u.high.toNat < d.toNat) (h1 : d.toNat < 2 ^ 63) :
    (divideWithRounding u d).toNat = u.toNat / d.toNat := by
  have hd0 : 0 < d.toNat := by omega
  obtain ⟨k1, k2, k3, k4, k5⟩ := norm_divisor d hd0 h1
  generalize hk : leadingZeros d = k at *
  have hff : u.high.toNat * 2 ^ k < 2 ^ 64 := by
    have : u.high.toNat * 2 ^ k ≤ d.toNat * 2 ^ k := Nat.mul_le_mul_right _ hfit.le
    omega
  have nd := norm_dividend u.high u.low k k1 k2 hff
  have hhlt : ((u.high <<< k) ||| (u.low >>> (64 - k))).toNat < d.toNat * 2 ^ k := by
    -- (hi*2^64+lo) * 2^k < d*2^64*2^k
    have hl := u.low.isLt
    have hll := (u.low <<< k).isLt
    have a1 : u.high.toNat * 2 ^ 64 + u.low.toNat < d.toNat * 2 ^ 64 := by omega
    have a2 : (u.high.toNat * 2 ^ 64 + u.low.toNat) * 2 ^ k < d.toNat * 2 ^ 64 * 2 ^ k :=
      Nat.mul_lt_mul_of_pos_right a1 (Nat.two_pow_pos _)
    rw [← nd] at a2
    have a3 : d.toNat * 2 ^ 64 * 2 ^ k = (d.toNat * 2 ^ k) * 2 ^ 64 := by ring
    rw [a3] at a2
    omega
  have sp := divLoop_spec (d <<< k) (by rw [k3]; exact k4) 64 0
    ((u.high <<< k) ||| (u.low >>> (64 - k))) (u.low <<< k) 0#64 (by omega)
    (by rw [k3]; exact hhlt) (by decide)
  generalize hr : divLoop (d <<< k) 64 ((u.high <<< k) ||| (u.low >>> (64 - k)), u.low <<< k, 0#64)
    = r at sp
  obtain ⟨H, L, Q⟩ := r
  obtain ⟨s1, s2, s3, s4⟩ := sp
  simp only at s1 s2 s3 s4
  rw [k3] at s1 s4
  have hL : L.toNat = 0 := by rw [s3]; omega
  have hz : (0#64).toNat = 0 := rfl
  rw [hL, nd, hz, Nat.zero_mul, Nat.mul_zero, Nat.zero_mul, Nat.add_zero, Nat.add_zero] at s4
  have hV : H.toNat + Q.toNat * (d.toNat * 2 ^ k) = u.toNat * 2 ^ k := by
    have : (H.toNat + Q.toNat * (d.toNat * 2 ^ k)) * 2 ^ 64 = (u.toNat * 2 ^ k) * 2 ^ 64 := by
      unfold U128.toNat; linarith
    exact Nat.eq_of_mul_eq_mul_right (by decide) this
  have hQ : Q.toNat = u.toNat / d.toNat := by
    have hp : 0 < (2:Nat) ^ k := Nat.two_pow_pos _
    rw [← Nat.mul_div_mul_right u.toNat d.toNat hp, ← hV, Nat.add_mul_div_right _ _ (by positivity),
      Nat.div_eq_of_lt s1, Nat.zero_add]
  -- H is a multiple of 2^k
  have hH : 2 ^ k ∣ H.toNat := by
    have e : H.toNat = u.toNat * 2 ^ k - Q.toNat * d.toNat * 2 ^ k := by
      rw [← hV, Nat.mul_assoc]; omega
    rw [e]
    exact Nat.dvd_sub (Dvd.intro_left _ rfl) (Dvd.intro_left _ rfl)
  have hsh : (H <<< (64 - k)).toNat = 0 := by
    obtain ⟨m, hm⟩ := hH
    rw [BitVec.toNat_shiftLeft, Nat.shiftLeft_eq, hm]
    have : 2 ^ k * m * 2 ^ (64 - k) = 2 ^ 64 * m := by
      have : (2:Nat) ^ 64 = 2 ^ k * 2 ^ (64 - k) := by rw [← Nat.pow_add]; congr 1; omega
      rw [this]; ring
    rw [this, Nat.mul_mod_right]
  have hrem : (H <<< (64 - k)) ||| (L >>> k) = 0#64 := by
    apply BitVec.eq_of_toNat_eq
    rw [BitVec.toNat_or, hsh, BitVec.toNat_ushiftRight, hL]; simp
  have hhalf : ¬ (0#64 ≥ (d + 1#64) >>> 1) := by
    rw [ge_iff_le, BitVec.le_def, BitVec.toNat_ushiftRight, BitVec.toNat_add,
      Nat.shiftRight_eq_div_pow]
    have : (1#64).toNat = 1 := rfl
    rw [this]; show ¬ _ ≤ 0; omega
  unfold divideWithRounding
  have hne : (u.high == 0#64) = false := by
    rw [beq_eq_false_iff_ne]; intro e; rw [e] at h0; exact absurd h0 (by decide)
  rw [hne]
  simp only [Bool.false_eq_true, if_false, hk]
  rw [hr]
  simp only
  rw [hrem, if_neg hhalf, hQ]

/-- In the narrow branch the result is rounded half up. -/
theorem divide_narrow (u : U128) (d : BitVec 64) (h0 : u.high = 0#64) (hd : 0 < d.toNat)
    (h1 : d.toNat < 2 ^ 63) :
    (divideWithRounding u d).toNat = (2 * u.toNat + d.toNat) / (2 * d.toNat) := by
  have hu : u.toNat = u.low.toNat := by unfold U128.toNat; rw [h0]; simp
  have hl := u.low.isLt
  unfold divideWithRounding
  have hb : (u.high == 0#64) = true := by rw [h0]; rfl
  rw [hb, if_pos rfl]
  simp only
  have hdm := Nat.div_add_mod u.low.toNat d.toNat
  have hml := Nat.mod_lt u.low.toNat hd
  have eq1 : (u.low / d).toNat = u.low.toNat / d.toNat := BitVec.toNat_udiv
  have hmul : (u.low / d * d).toNat = d.toNat * (u.low.toNat / d.toNat) := by
    rw [BitVec.toNat_mul, eq1, Nat.mul_comm, Nat.mod_eq_of_lt (by omega)]
  have hrem : (u.low - u.low / d * d).toNat = u.low.toNat % d.toNat := by
    rw [BitVec.toNat_sub, hmul]; omega
  have hcmp : (u.low - u.low / d * d ≥ (d + 1#64) >>> 1) ↔ d.toNat ≤ 2 * (u.low.toNat % d.toNat) := by
    rw [ge_iff_le, BitVec.le_def, hrem, BitVec.toNat_ushiftRight, BitVec.toNat_add,
      Nat.shiftRight_eq_div_pow]
    have : (1#64).toNat = 1 := rfl
    rw [this]; omega
  rw [hu]
  generalize hQ : u.low.toNat / d.toNat = q at *
  generalize hR : u.low.toNat % d.toNat = r at *
  have hmain : (2 * u.low.toNat + d.toNat) / (2 * d.toNat) = if d.toNat ≤ 2 * r then q + 1 else q := by
    have e : 2 * u.low.toNat + d.toNat = (2 * r + d.toNat) + q * (2 * d.toNat) := by
      rw [← hdm]; ring
    rw [e, Nat.add_mul_div_right _ _ (by omega)]
    split
    · next h =>
      have : (2 * r + d.toNat) / (2 * d.toNat) = 1 := by
        rw [Nat.div_eq_iff (by omega)]; omega
      omega
    · next h => rw [Nat.div_eq_of_lt (by omega)]; omega
  rw [hmain]
  by_cases hc : d.toNat ≤ 2 * r
  · rw [if_pos hc, if_pos (hcmp.2 hc), BitVec.toNat_add, eq1]
    have : (1#64).toNat = 1 := rfl
    rw [this, Nat.mod_eq_of_lt]
    -- q + 1 ≤ 2^64 - 1 : if d = 1 then r = 0
    have hdq : d.toNat * q + r = u.low.toNat := hdm
    have h2 : 2 ≤ d.toNat := by omega
    have : 2 * q ≤ d.toNat * q := Nat.mul_le_mul_right q h2
    omega
  · rw [if_neg hc, if_neg (fun h => hc (hcmp.1 h)), eq1]

theorem U128.ofNat_toNat (n : Nat) (h : n < 2 ^ 128) : (U128.ofNat n).toNat = n := by
  unfold U128.ofNat U128.toNat
  simp only [BitVec.toNat_ofNat]
  omega

end IOverlay
