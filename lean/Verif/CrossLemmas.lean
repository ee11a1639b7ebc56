/- Geometry of the crossing test. -/
import Verif.Cross
import Verif.Wind

namespace IOverlay

theorem QPt.ext' {p q : QPt} (hx : p.x = q.x) (hy : p.y = q.y) : p = q := by
  cases p; cases q; simp_all

theorem Pt.q_inj {p q : Pt} (h : p.q = q.q) : p = q := by
  unfold Pt.q at h
  injection h with h1 h2
  rw [Pt.ext_iff']; exact ⟨by exact_mod_cast h1, by exact_mod_cast h2⟩

/-- Twice the signed area with a rational third point. -/
def qarea (a b : Pt) (p : QPt) : ℚ :=
  ((b.x : ℚ) - a.x) * (b.y - p.y) - (b.y - a.y) * (b.x - p.x)

theorem qarea_q (a b c : Pt) : qarea a b c.q = (area2 a b c : ℚ) := by
  unfold qarea area2 Pt.q; push_cast; ring

theorem qarea_param {a b c d : Pt} {p : QPt} {t : ℚ} (h : atParam p c d t) :
    qarea a b p = (1 - t) * (area2 a b c : ℚ) + t * (area2 a b d : ℚ) := by
  obtain ⟨hx, hy⟩ := h
  unfold qarea area2; push_cast; rw [hx, hy]; ring

theorem qarea_self {a b : Pt} {p : QPt} {t : ℚ} (h : atParam p a b t) : qarea a b p = 0 := by
  rw [qarea_param h, area2_self_left, area2_self_right]; simp

theorem exists_param {a b : Pt} (hab : a ≠ b) {p : QPt} (h : qarea a b p = 0) :
    ∃ t, atParam p a b t := by
  unfold qarea at h
  by_cases hx : a.x = b.x
  · have hy : (b.y : ℚ) - a.y ≠ 0 := by
      have : b.y ≠ a.y := by
        intro e; exact hab (Pt.ext_iff'.2 ⟨hx, e.symm⟩)
      have : (b.y : ℚ) ≠ a.y := by exact_mod_cast this
      exact sub_ne_zero.2 this
    have hx' : (b.x : ℚ) = a.x := by rw [hx]
    refine ⟨(p.y - a.y) / (b.y - a.y), ?_, ?_⟩
    · rw [hx'] at h ⊢
      have : (a.x : ℚ) - p.x = 0 := by
        apply (mul_eq_zero.1 (_ : ((b.y:ℚ) - a.y) * (a.x - p.x) = 0)).resolve_left hy
        linear_combination -h
      linear_combination -this
    · field_simp; ring
  · have hx' : (b.x : ℚ) - a.x ≠ 0 := by
      have : (b.x : ℚ) ≠ a.x := by exact_mod_cast (Ne.symm hx)
      exact sub_ne_zero.2 this
    refine ⟨(p.x - a.x) / (b.x - a.x), ?_, ?_⟩
    · field_simp; ring
    · field_simp; linear_combination -h

theorem atParam_zero {p : QPt} {a b : Pt} (h : atParam p a b 0) : p = a.q :=
  QPt.ext' (by rw [h.1]; simp [Pt.q]) (by rw [h.2]; simp [Pt.q])

theorem atParam_one {p : QPt} {a b : Pt} (h : atParam p a b 1) : p = b.q :=
  QPt.ext' (by rw [h.1]; simp [Pt.q]) (by rw [h.2]; simp [Pt.q])

theorem atParam_left (a b : Pt) : atParam a.q a b 0 := by constructor <;> simp [Pt.q]
theorem atParam_right (a b : Pt) : atParam b.q a b 1 := by constructor <;> simp [Pt.q]

theorem onSeg_left (a b : Pt) : onSeg a.q a b := ⟨0, le_refl _, zero_le_one, atParam_left a b⟩
theorem onSeg_right (a b : Pt) : onSeg b.q a b := ⟨1, zero_le_one, le_refl _, atParam_right a b⟩

theorem inSeg.on {p : QPt} {a b : Pt} (h : inSeg p a b) : onSeg p a b := by
  obtain ⟨t, h0, h1, h⟩ := h; exact ⟨t, h0.le, h1.le, h⟩

theorem onSeg_cases {p : QPt} {a b : Pt} (h : onSeg p a b) : p = a.q ∨ p = b.q ∨ inSeg p a b := by
  obtain ⟨t, h0, h1, h⟩ := h
  rcases h0.eq_or_lt with e | h0
  · subst e; exact Or.inl (atParam_zero h)
  · rcases h1.eq_or_lt with e | h1
    · subst e; exact Or.inr (Or.inl (atParam_one h))
    · exact Or.inr (Or.inr ⟨t, h0, h1, h⟩)

theorem atParam_inj {p : QPt} {a b : Pt} (hab : a ≠ b) {t u : ℚ} (h : atParam p a b t)
    (h' : atParam p a b u) : t = u := by
  by_contra hne
  have hne' : t - u ≠ 0 := sub_ne_zero.2 hne
  apply hab
  rw [Pt.ext_iff']
  have hx : (t - u) * ((b.x:ℚ) - a.x) = 0 := by linear_combination h'.1 - h.1
  have hy : (t - u) * ((b.y:ℚ) - a.y) = 0 := by linear_combination h'.2 - h.2
  have hx := (mul_eq_zero.1 hx).resolve_left hne'
  have hy := (mul_eq_zero.1 hy).resolve_left hne'
  constructor
  · have : (a.x : ℚ) = b.x := by linarith
    exact_mod_cast this
  · have : (a.y : ℚ) = b.y := by linarith
    exact_mod_cast this

theorem inSeg.ne {p : QPt} {a b : Pt} (hab : a ≠ b) (h : inSeg p a b) : p ≠ a.q ∧ p ≠ b.q := by
  obtain ⟨t, h0, h1, h⟩ := h
  constructor
  · rintro rfl
    have := atParam_inj hab h (atParam_left a b)
    linarith
  · rintro rfl
    have := atParam_inj hab h (atParam_right a b)
    linarith

/-- If the line value has strictly opposite signs at the two ends, its zero is strictly inside. -/
theorem param_between {x y t : ℚ} (h : (1 - t) * x + t * y = 0)
    (ho : (x < 0 ∧ 0 < y) ∨ (y < 0 ∧ 0 < x)) : 0 < t ∧ t < 1 := by
  rcases ho with ⟨hx, hy⟩ | ⟨hy, hx⟩
  · constructor
    · by_contra h0
      nlinarith
    · by_contra h1
      nlinarith
  · constructor
    · by_contra h0
      nlinarith
    · by_contra h1
      nlinarith

theorem param_same {x y t : ℚ} (h : (1 - t) * x + t * y = 0) (h0 : 0 ≤ t) (h1 : t ≤ 1)
    (ho : (0 < x ∧ 0 < y) ∨ (x < 0 ∧ y < 0)) : False := by
  rcases ho with ⟨hx, hy⟩ | ⟨hx, hy⟩
  · rcases h0.eq_or_lt with e | h0
    · subst e; simp at h; linarith
    · have := mul_pos h0 hy
      have := mul_nonneg (sub_nonneg.2 h1) hx.le
      linarith
  · rcases h0.eq_or_lt with e | h0
    · subst e; simp at h; linarith
    · have := mul_neg_of_pos_of_neg h0 hy
      have := mul_nonpos_of_nonneg_of_nonpos (sub_nonneg.2 h1) hx.le
      linarith

theorem all_line {a b c d : Pt} (hab : a ≠ b) (h1 : area2 a b c = 0) (h2 : area2 a b d = 0) :
    area2 c d a = 0 ∧ area2 c d b = 0 := by
  unfold area2 at *
  rw [ne_eq, Pt.ext_iff'] at hab
  by_cases hx : a.x = b.x
  · have hy : b.y - a.y ≠ 0 := by omega
    constructor
    · apply mul_left_cancel₀ hy
      linear_combination (c.y - a.y) * h2 - (d.y - a.y) * h1
    · apply mul_left_cancel₀ hy
      linear_combination (c.y - b.y) * h2 - (d.y - b.y) * h1
  · have hx' : b.x - a.x ≠ 0 := by omega
    constructor
    · apply mul_left_cancel₀ hx'
      linear_combination (c.x - a.x) * h2 - (d.x - a.x) * h1
    · apply mul_left_cancel₀ hx'
      linear_combination (c.x - b.x) * h2 - (d.x - b.x) * h1


/-- All four end points lie on one line. -/
def AllOnLine (t o : XSeg) : Prop :=
  area2 t.a t.b o.a = 0 ∧ area2 t.a t.b o.b = 0 ∧ area2 o.a o.b t.a = 0 ∧ area2 o.a o.b t.b = 0

/-- Strictly opposite signs. -/
def Opp (x y : Int) : Prop := (x < 0 ∧ 0 < y) ∨ (y < 0 ∧ 0 < x)

theorem common_unique {a b c d : Pt} (h : ¬ (area2 a b c = 0 ∧ area2 a b d = 0)) {p p' : QPt}
    (h1 : onSeg p a b) (h2 : onSeg p c d) (h1' : onSeg p' a b) (h2' : onSeg p' c d) : p = p' := by
  obtain ⟨t, _, _, ht⟩ := h1
  obtain ⟨u, _, _, hu⟩ := h2
  obtain ⟨t', _, _, ht'⟩ := h1'
  obtain ⟨u', _, _, hu'⟩ := h2'
  have e1 := qarea_param (a := a) (b := b) hu
  have e2 := qarea_param (a := a) (b := b) hu'
  rw [qarea_self ht] at e1
  rw [qarea_self ht'] at e2
  have e3 : (u - u') * ((area2 a b d : ℚ) - area2 a b c) = 0 := by linear_combination e2 - e1
  rcases mul_eq_zero.1 e3 with e | e
  · have : u = u' := by linarith
    subst this
    exact QPt.ext' (by rw [hu.1, hu'.1]) (by rw [hu.2, hu'.2])
  · exfalso
    apply h
    have hc : (area2 a b c : ℚ) = 0 := by linear_combination -e1 - u * e
    have hd : (area2 a b d : ℚ) = 0 := by linear_combination e + hc
    exact ⟨by exact_mod_cast hc, by exact_mod_cast hd⟩

theorem inSeg_of_opp {a b c d : Pt} (hab : a ≠ b) {p : QPt} (hp : qarea a b p = 0)
    (hq : qarea c d p = 0) (ho : Opp (area2 c d a) (area2 c d b)) : inSeg p a b := by
  obtain ⟨t, ht⟩ := exists_param hab hp
  have e := qarea_param (a := c) (b := d) ht
  rw [hq] at e
  have := param_between e.symm (by
    rcases ho with ⟨h1, h2⟩ | ⟨h1, h2⟩
    · exact Or.inl ⟨by exact_mod_cast h1, by exact_mod_cast h2⟩
    · exact Or.inr ⟨by exact_mod_cast h1, by exact_mod_cast h2⟩)
  exact ⟨t, this.1, this.2, ht⟩

/-- Two segments cross strictly inside both when the sides are strictly opposite. -/
theorem exists_cross_of_opp {a b c d : Pt} (hcd : c ≠ d)
    (ho : Opp (area2 a b c) (area2 a b d)) (ho' : Opp (area2 c d a) (area2 c d b)) :
    ∃ p, inSeg p a b ∧ inSeg p c d := by
  have hne : ((area2 a b c : ℚ) - area2 a b d) ≠ 0 := by
    have : area2 a b c ≠ area2 a b d := by rcases ho with h | h <;> omega
    have : (area2 a b c : ℚ) ≠ area2 a b d := by exact_mod_cast this
    exact sub_ne_zero.2 this
  have hab : a ≠ b := by
    rintro rfl
    rcases ho with h | h <;> rw [area2_self_mid, area2_self_mid] at h <;> omega
  have hu : atParam ⟨c.x + (area2 a b c : ℚ) / (area2 a b c - area2 a b d) * (d.x - c.x),
      c.y + (area2 a b c : ℚ) / (area2 a b c - area2 a b d) * (d.y - c.y)⟩ c d
      ((area2 a b c : ℚ) / (area2 a b c - area2 a b d)) := ⟨rfl, rfl⟩
  refine ⟨_, inSeg_of_opp hab ?_ (qarea_self hu) ho', inSeg_of_opp hcd (qarea_self hu) ?_ ho⟩
  all_goals
    rw [qarea_param hu]; field_simp; ring

/-- What the crossing test found. -/
inductive CrossSpec (t o : XSeg) (radius : Int) : Option CrossResult → Prop
  | overlay : AllOnLine t o → CrossSpec t o radius (some ⟨⟨0, 0⟩, .overlay, false⟩)
  | none : ¬ AllOnLine t o → MeetAtEnds t.a t.b o.a o.b → CrossSpec t o radius none
  | otherEnd (p : Pt) : ¬ AllOnLine t o → (p = o.a ∨ p = o.b) → inSeg p.q t.a t.b →
      CrossSpec t o radius (some ⟨p, .otherEnd, false⟩)
  | targetEnd (p : Pt) : ¬ AllOnLine t o → (p = t.a ∨ p = t.b) → inSeg p.q o.a o.b →
      CrossSpec t o radius (some ⟨p, .targetEnd, false⟩)
  | middle : Opp (area2 t.a t.b o.a) (area2 t.a t.b o.b) →
      Opp (area2 o.a o.b t.a) (area2 o.a o.b t.b) →
      CrossSpec t o radius (some (middleCross t o radius))

theorem sign_cases (x : Int) : (x < 0 ∧ x.sign = -1) ∨ (x = 0 ∧ x.sign = 0) ∨ (0 < x ∧ x.sign = 1) := by
  rcases lt_trichotomy x 0 with h | h | h
  · exact Or.inl ⟨h, Int.sign_eq_neg_one_of_neg h⟩
  · exact Or.inr (Or.inl ⟨h, by simp [h]⟩)
  · exact Or.inr (Or.inr ⟨h, Int.sign_eq_one_of_pos h⟩)

theorem meetAtEnds_of_same {a b c d : Pt}
    (h : (0 < area2 a b c ∧ 0 < area2 a b d) ∨ (area2 a b c < 0 ∧ area2 a b d < 0)) {p : QPt}
    (h1 : onSeg p a b) (h2 : onSeg p c d) : False := by
  obtain ⟨t, _, _, ht⟩ := h1
  obtain ⟨u, h0, h1, hu⟩ := h2
  have e1 := qarea_param (a := a) (b := b) hu
  rw [qarea_self ht] at e1
  refine param_same e1.symm h0 h1 ?_
  rcases h with ⟨h1, h2⟩ | ⟨h1, h2⟩
  · exact Or.inl ⟨by exact_mod_cast h1, by exact_mod_cast h2⟩
  · exact Or.inr ⟨by exact_mod_cast h1, by exact_mod_cast h2⟩

/-- If exactly one end `c d` is on the line `a b`, a common point is that end. -/
theorem end_of_zero {a b c d : Pt} {p : QPt} (h1 : onSeg p a b) (h2 : onSeg p c d)
    (hz : (area2 a b c = 0 ∧ area2 a b d ≠ 0) ∨ (area2 a b c ≠ 0 ∧ area2 a b d = 0)) :
    p = c.q ∨ p = d.q := by
  obtain ⟨t, _, _, ht⟩ := h1
  obtain ⟨u, h0, h1, hu⟩ := h2
  have e1 := qarea_param (a := a) (b := b) hu
  rw [qarea_self ht] at e1
  rcases hz with ⟨hc, hd⟩ | ⟨hc, hd⟩
  · left
    have hd' : (area2 a b d : ℚ) ≠ 0 := by exact_mod_cast hd
    rw [hc] at e1
    have : u * (area2 a b d : ℚ) = 0 := by push_cast at e1; linear_combination -e1
    have := (mul_eq_zero.1 this).resolve_right hd'
    subst this; exact atParam_zero hu
  · right
    have hc' : (area2 a b c : ℚ) ≠ 0 := by exact_mod_cast hc
    rw [hd] at e1
    have : (1 - u) * (area2 a b c : ℚ) = 0 := by push_cast at e1; linear_combination -e1
    have := (mul_eq_zero.1 this).resolve_right hc'
    have : u = 1 := by linarith
    subst this; exact atParam_one hu

theorem cross_spec (t o : XSeg) (ht : t.a ≠ t.b) (ho : o.a ≠ o.b) (radius : Int) :
    CrossSpec t o radius (cross t o radius) := by
  have al := all_line (c := o.a) (d := o.b) ht
  have al' := all_line (c := t.a) (d := t.b) ho
  unfold cross clockDir
  dsimp only
  rcases sign_cases (area2 t.a t.b o.a) with ⟨hA, eA⟩ | ⟨hA, eA⟩ | ⟨hA, eA⟩ <;>
  rcases sign_cases (area2 t.a t.b o.b) with ⟨hB, eB⟩ | ⟨hB, eB⟩ | ⟨hB, eB⟩ <;>
  rcases sign_cases (area2 o.a o.b t.a) with ⟨hC, eC⟩ | ⟨hC, eC⟩ | ⟨hC, eC⟩ <;>
  rcases sign_cases (area2 o.a o.b t.b) with ⟨hD, eD⟩ | ⟨hD, eD⟩ | ⟨hD, eD⟩ <;>
  simp only [eA, eB, eC, eD] <;>
  first
  | -- contradictory: two zeros on one side force all zeros
    exfalso
    first
    | (have := al hA hB; omega)
    | (have := al' hC hD; omega)
  | -- overlay
    exact .overlay ⟨hA, hB, hC, hD⟩
  | -- same side of target line
    refine .none (by unfold AllOnLine; omega) ?_
    intro p h1 h2
    exact absurd (meetAtEnds_of_same (by omega) h1 h2) id
  | -- same side of other line
    refine .none (by unfold AllOnLine; omega) ?_
    intro p h1 h2
    exact absurd (meetAtEnds_of_same (by omega) h2 h1) id
  | -- one zero each: common end point
    refine .none (by unfold AllOnLine; omega) ?_
    intro p h1 h2
    exact ⟨end_of_zero h2 h1 (by omega), end_of_zero h1 h2 (by omega)⟩
  | exact .otherEnd _ (by unfold AllOnLine; omega) (Or.inl rfl)
      (inSeg_of_opp (c := o.a) (d := o.b) (a := t.a) (b := t.b) ht
        (by rw [qarea_q, hA]; rfl) (by rw [qarea_q, area2_self_left]; rfl)
        (by unfold Opp; omega))
  | exact .otherEnd _ (by unfold AllOnLine; omega) (Or.inr rfl)
      (inSeg_of_opp (c := o.a) (d := o.b) (a := t.a) (b := t.b) ht
        (by rw [qarea_q, hB]; rfl) (by rw [qarea_q, area2_self_right]; rfl)
        (by unfold Opp; omega))
  | exact .targetEnd _ (by unfold AllOnLine; omega) (Or.inl rfl)
      (inSeg_of_opp (c := t.a) (d := t.b) (a := o.a) (b := o.b) ho
        (by rw [qarea_q, hC]; rfl) (by rw [qarea_q, area2_self_left]; rfl)
        (by unfold Opp; omega))
  | exact .targetEnd _ (by unfold AllOnLine; omega) (Or.inr rfl)
      (inSeg_of_opp (c := t.a) (d := t.b) (a := o.a) (b := o.b) ho
        (by rw [qarea_q, hD]; rfl) (by rw [qarea_q, area2_self_right]; rfl)
        (by unfold Opp; omega))
  | exact .middle (by unfold Opp; omega) (by unfold Opp; omega)

end IOverlay
