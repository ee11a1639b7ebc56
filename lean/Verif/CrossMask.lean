/- Collinear overlap flags and rounded crossing points. -/
import Verif.CrossLemmas

namespace IOverlay

theorem sign_opp (x y : Int) : (x.sign == -y.sign && x.sign != 0) = true ↔ Opp x y := by
  unfold Opp
  rcases sign_cases x with ⟨h, e⟩ | ⟨h, e⟩ | ⟨h, e⟩ <;>
  rcases sign_cases y with ⟨h', e'⟩ | ⟨h', e'⟩ | ⟨h', e'⟩ <;>
  simp only [e, e'] <;> constructor <;> intro hh <;> first | omega | (exfalso; revert hh; decide) | rfl

theorem Opp.neg_iff (x y : Int) : Opp (-x) (-y) ↔ Opp x y := by unfold Opp; omega
theorem Opp.comm_iff (x y : Int) : Opp x y ↔ Opp y x := by unfold Opp; omega

theorem dot_swap (p q r s : Pt) : dot p q r s = - dot q p r s := by unfold dot; ring

theorem inSeg_iff_dot {a b p c d : Pt} (hcd : c ≠ d) (hab : a ≠ b) (ha : area2 c d a = 0) (hb : area2 c d b = 0)
    (hp : area2 c d p = 0) : inSeg p.q a b ↔ Opp (dot a p d c) (dot b p d c) := by
  obtain ⟨α, hα⟩ := exists_param (p := a.q) hcd (by rw [qarea_q, ha]; rfl)
  obtain ⟨β, hβ⟩ := exists_param (p := b.q) hcd (by rw [qarea_q, hb]; rfl)
  obtain ⟨π, hπ⟩ := exists_param (p := p.q) hcd (by rw [qarea_q, hp]; rfl)
  obtain ⟨hax, hay⟩ := hα
  obtain ⟨hbx, hby⟩ := hβ
  obtain ⟨hpx, hpy⟩ := hπ
  simp only [Pt.q] at hax hay hbx hby hpx hpy
  set L : ℚ := ((d.x : ℚ) - c.x) * (d.x - c.x) + (d.y - c.y) * (d.y - c.y) with hL
  have hLpos : 0 < L := by
    by_contra hn
    have h1 : ((d.x : ℚ) - c.x) * (d.x - c.x) = 0 := by
      nlinarith [mul_self_nonneg ((d.x : ℚ) - c.x), mul_self_nonneg ((d.y : ℚ) - c.y)]
    have h2 : ((d.y : ℚ) - c.y) * (d.y - c.y) = 0 := by
      nlinarith [mul_self_nonneg ((d.x : ℚ) - c.x), mul_self_nonneg ((d.y : ℚ) - c.y)]
    have h1 := mul_self_eq_zero.1 h1
    have h2 := mul_self_eq_zero.1 h2
    apply hcd
    rw [Pt.ext_iff']
    have h1 : (c.x : ℚ) = d.x := by linarith
    have h2 : (c.y : ℚ) = d.y := by linarith
    exact ⟨by exact_mod_cast h1, by exact_mod_cast h2⟩
  have e1 : ((dot a p d c : Int) : ℚ) = (α - π) * L := by
    unfold dot; push_cast; rw [hax, hay, hpx, hpy, hL]; ring
  have e2 : ((dot b p d c : Int) : ℚ) = (β - π) * L := by
    unfold dot; push_cast; rw [hbx, hby, hpx, hpy, hL]; ring
  have k : Opp (dot a p d c) (dot b p d c) ↔ (α < π ∧ π < β) ∨ (β < π ∧ π < α) := by
    unfold Opp
    have n : ∀ x : Int, (x < 0 ↔ (x : ℚ) < 0) ∧ (0 < x ↔ (0 : ℚ) < x) := by
      intro x; constructor <;> norm_cast
    rw [(n _).1, (n _).1, (n _).2, (n _).2, e1, e2]
    have m : ∀ z : ℚ, (z * L < 0 ↔ z < 0) ∧ (0 < z * L ↔ 0 < z) := by
      intro z
      constructor
      · constructor
        · intro h; by_contra hz; have := mul_nonneg (not_lt.1 hz) hLpos.le; linarith
        · intro h; exact mul_neg_of_neg_of_pos h hLpos
      · constructor
        · intro h; by_contra hz
          have := mul_nonpos_of_nonpos_of_nonneg (not_lt.1 hz) hLpos.le; linarith
        · intro h; exact mul_pos h hLpos
    rw [(m _).1, (m _).1, (m _).2, (m _).2]
    simp only [sub_neg, sub_pos]
  rw [k]
  constructor
  · rintro ⟨t, h0, h1, hx, hy⟩
    simp only [Pt.q] at hx hy
    -- π = α + t (β - α)
    have hz : (π - α - t * (β - α)) * L = 0 := by
      rw [hL]
      rw [hpx, hax, hbx] at hx
      rw [hpy, hay, hby] at hy
      linear_combination ((d.x : ℚ) - c.x) * hx + ((d.y : ℚ) - c.y) * hy
    have hz := (mul_eq_zero.1 hz).resolve_right hLpos.ne'
    rcases lt_trichotomy α β with h | h | h
    · left
      have m1 := mul_pos h0 (sub_pos.2 h)
      have m2 := mul_pos (sub_pos.2 h1) (sub_pos.2 h)
      constructor <;> linarith
    · exfalso
      apply hab
      rw [Pt.ext_iff']
      rw [← h] at hbx hby
      have h1 : (a.x : ℚ) = b.x := by rw [hax, hbx]
      have h2 : (a.y : ℚ) = b.y := by rw [hay, hby]
      exact ⟨by exact_mod_cast h1, by exact_mod_cast h2⟩
    · right
      have m1 := mul_pos h0 (sub_pos.2 h)
      have m2 := mul_pos (sub_pos.2 h1) (sub_pos.2 h)
      constructor <;> linarith
  · intro h
    have hne : β - α ≠ 0 := by rcases h with ⟨h1, h2⟩ | ⟨h1, h2⟩ <;> intro e <;> linarith
    refine ⟨(π - α) / (β - α), ?_, ?_, ?_, ?_⟩
    · rcases h with ⟨h1, h2⟩ | ⟨h1, h2⟩
      · exact div_pos (by linarith) (by linarith)
      · exact div_pos_of_neg_of_neg (by linarith) (by linarith)
    · rcases h with ⟨h1, h2⟩ | ⟨h1, h2⟩
      · rw [div_lt_one (by linarith)]; linarith
      · rw [div_lt_one_of_neg (by linarith)]; linarith
    · simp only [Pt.q]; rw [hpx, hax, hbx]; field_simp; ring
    · simp only [Pt.q]; rw [hpy, hay, hby]; field_simp; ring

/-- The four collinear flags say which end points lie strictly inside the other edge. -/
theorem collinear_spec {t o : XSeg} (ht : t.a ≠ t.b) (ho : o.a ≠ o.b) (h : AllOnLine t o) :
    ((collinear t o).targetA = true ↔ inSeg t.a.q o.a o.b) ∧
    ((collinear t o).targetB = true ↔ inSeg t.b.q o.a o.b) ∧
    ((collinear t o).otherA = true ↔ inSeg o.a.q t.a t.b) ∧
    ((collinear t o).otherB = true ↔ inSeg o.b.q t.a t.b) := by
  obtain ⟨h1, h2, h3, h4⟩ := h
  have l := area2_self_left o.a o.b
  have r := area2_self_right o.a o.b
  rw [inSeg_iff_dot ho ho l r h3, inSeg_iff_dot ho ho l r h4, inSeg_iff_dot ho ht h3 h4 l,
    inSeg_iff_dot ho ht h3 h4 r]
  unfold collinear
  simp only
  refine ⟨?_, ?_, ?_, ?_⟩
  · rw [sign_opp, dot_swap t.a, dot_swap t.a o.b, Opp.neg_iff]
  · rw [sign_opp, dot_swap t.b, dot_swap t.b o.b, Opp.neg_iff]
  · rw [← Int.sign_neg, ← Int.sign_neg, sign_opp, Opp.neg_iff]
  · rw [← Int.sign_neg, ← Int.sign_neg, sign_opp, Opp.neg_iff]

theorem sqrDist_nonneg (a b : Pt) : 0 ≤ sqrDist a b := by
  unfold sqrDist
  nlinarith [mul_self_nonneg (a.x - b.x), mul_self_nonneg (a.y - b.y)]

theorem sqrDist_eq_zero {a b : Pt} : sqrDist a b = 0 ↔ a = b := by
  constructor
  · intro h
    have h' : (a.x - b.x) * (a.x - b.x) + (a.y - b.y) * (a.y - b.y) = 0 := h
    have h1 := mul_self_nonneg (a.x - b.x)
    have h2 := mul_self_nonneg (a.y - b.y)
    have h3 := mul_self_eq_zero.1 (by omega : (a.x - b.x) * (a.x - b.x) = 0)
    have h4 := mul_self_eq_zero.1 (by omega : (a.y - b.y) * (a.y - b.y) = 0)
    rw [Pt.ext_iff']; omega
  · rintro rfl; unfold sqrDist; ring

theorem isLine_mid {a b p : Pt} : isLine a p b = true ↔ area2 a b p = 0 := by
  rw [isLine_iff]
  have : area2 a b p = - area2 a p b := by unfold area2; ring
  rw [this]; omega

/-- The possible outcomes for a proper crossing. -/
inductive MiddleSpec (t o : XSeg) : CrossResult → Prop
  | exact (p : Pt) : inSeg p.q t.a t.b → inSeg p.q o.a o.b → MiddleSpec t o ⟨p, .pure, false⟩
  | round (p : Pt) : p = crossPoint t o → p ≠ t.a → p ≠ t.b → p ≠ o.a → p ≠ o.b →
      MiddleSpec t o ⟨p, .pure, true⟩
  | target (p : Pt) : (p = t.a ∨ p = t.b) → p ≠ o.a → p ≠ o.b → MiddleSpec t o ⟨p, .targetEnd, true⟩
  | other (p : Pt) : (p = o.a ∨ p = o.b) → p ≠ t.a → p ≠ t.b → MiddleSpec t o ⟨p, .otherEnd, true⟩

theorem middleCross_spec {t o : XSeg} (h1 : Opp (area2 t.a t.b o.a) (area2 t.a t.b o.b))
    (h2 : Opp (area2 o.a o.b t.a) (area2 o.a o.b t.b)) {radius : Int} (hr : 0 ≤ radius) :
    MiddleSpec t o (middleCross t o radius) := by
  have ht : t.a ≠ t.b := by
    intro e; rw [e, area2_self_mid, area2_self_mid] at h1; unfold Opp at h1; omega
  have ho : o.a ≠ o.b := by
    intro e; rw [e, area2_self_mid, area2_self_mid] at h2; unfold Opp at h2; omega
  have n1 : area2 t.a t.b o.a ≠ 0 := by unfold Opp at h1; omega
  have n2 : area2 t.a t.b o.b ≠ 0 := by unfold Opp at h1; omega
  have n3 : area2 o.a o.b t.a ≠ 0 := by unfold Opp at h2; omega
  have n4 : area2 o.a o.b t.b ≠ 0 := by unfold Opp at h2; omega
  have off : ∀ x, (x = t.a ∨ x = t.b) → x ≠ o.a ∧ x ≠ o.b := by
    rintro x (rfl | rfl)
    · exact ⟨fun e => n3 (by rw [e, area2_self_left]), fun e => n3 (by rw [e, area2_self_right])⟩
    · exact ⟨fun e => n4 (by rw [e, area2_self_left]), fun e => n4 (by rw [e, area2_self_right])⟩
  have lineO : ∀ x, (x = t.a ∨ x = t.b) → isLine o.a x o.b = false := by
    intro x hx
    rw [← Bool.not_eq_true, isLine_mid]
    rcases hx with rfl | rfl <;> assumption
  have lineT : ∀ x, (x = o.a ∨ x = o.b) → isLine t.a x t.b = false := by
    intro x hx
    rw [← Bool.not_eq_true, isLine_mid]
    rcases hx with rfl | rfl <;> assumption
  unfold middleCross
  generalize hp : crossPoint t o = p
  simp only
  split
  · next hl =>
    rw [Bool.and_eq_true, isLine_mid, isLine_mid] at hl
    refine .exact p ?_ ?_
    · exact inSeg_of_opp ht (by rw [qarea_q, hl.1]; rfl) (by rw [qarea_q, hl.2]; rfl) h2
    · exact inSeg_of_opp ho (by rw [qarea_q, hl.2]; rfl) (by rw [qarea_q, hl.1]; rfl) h1
  · split
    · split
      · have he : ∀ c : Prop, [Decidable c] → ((if c then t.a else t.b) = t.a ∨
            (if c then t.a else t.b) = t.b) := by intro c _; split <;> simp
        have he' := he (sqrDist t.a p < sqrDist t.b p)
        rw [lineO _ he']
        exact .target _ he' (off _ he').1 (off _ he').2
      · have he : ∀ c : Prop, [Decidable c] → ((if c then o.a else o.b) = o.a ∨
            (if c then o.a else o.b) = o.b) := by intro c _; split <;> simp
        have he' := he (sqrDist o.a p < sqrDist o.b p)
        rw [lineT _ he']
        refine .other _ he' ?_ ?_
        · intro e; rcases he' with h | h
          · exact (off t.a (Or.inl rfl)).1 (e.symm.trans h)
          · exact (off t.a (Or.inl rfl)).2 (e.symm.trans h)
        · intro e; rcases he' with h | h
          · exact (off t.b (Or.inr rfl)).1 (e.symm.trans h)
          · exact (off t.b (Or.inr rfl)).2 (e.symm.trans h)
    · next hn =>
      have z : ∀ x, sqrDist x p ≤ radius ∨ p ≠ x := by
        intro x
        by_cases e : p = x
        · left; rw [sqrDist_eq_zero.2 e.symm]; exact hr
        · exact Or.inr e
      refine .round p hp.symm ?_ ?_ ?_ ?_
      · rcases z t.a with h | h
        · exact absurd (Or.inl h) hn
        · exact h
      · rcases z t.b with h | h
        · exact absurd (Or.inr (Or.inr (Or.inl h))) hn
        · exact h
      · rcases z o.a with h | h
        · exact absurd (Or.inr (Or.inl h)) hn
        · exact h
      · rcases z o.b with h | h
        · exact absurd (Or.inr (Or.inr (Or.inr h))) hn
        · exact h

end IOverlay
