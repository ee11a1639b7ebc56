/-
The edges around a vertex of a noded edge list in rotation order, and how the winding number of a closed
flow changes when turning around the vertex. Used for the orientation of contours (C41).
-/
import Verif.Flow
import Verif.Props.Rotation

namespace IOverlay
variable {C : Type}

/-! ### angles -/

/-- `d` has the angle `θ`, counterclockwise from straight down. -/
def HasAngle (d : Vec) (θ : ℝ) : Prop :=
  0 < θ ∧ θ ≤ 2 * Real.pi ∧ ∃ r : ℝ, 0 < r ∧ (d.x : ℝ) = r * Real.sin θ ∧ (d.y : ℝ) = - (r * Real.cos θ)

theorem hasAngle_exists {d : Vec} (h : d ≠ ⟨0, 0⟩) : ∃ θ, HasAngle d θ := by
  obtain ⟨θ, h1, h2, r, hr, h3, h4⟩ := sweepAngle_exists false (a := ⟨0, -1⟩) (p := d) (by simp) h
  refine ⟨θ, h1, h2, r, hr, ?_, ?_⟩
  · rw [h3]; simp
  · rw [h4]; simp

open Classical in
/-- The angle of a direction, counterclockwise from straight down, in `(0, 2π]`. -/
noncomputable def angle (d : Vec) : ℝ := if h : ∃ θ, HasAngle d θ then Classical.choose h else 0

theorem angle_spec {d : Vec} (h : d ≠ ⟨0, 0⟩) : HasAngle d (angle d) := by
  unfold angle
  rw [dif_pos (hasAngle_exists h)]
  exact Classical.choose_spec (hasAngle_exists h)

theorem HasAngle.right {d : Vec} {θ : ℝ} (h : HasAngle d θ) (hx : 0 < d.x) : θ < Real.pi := by
  obtain ⟨h1, h2, r, hr, h3, h4⟩ := h
  have hpi := Real.pi_pos
  by_contra hc
  push Not at hc
  have hx' : (0:ℝ) < d.x := by exact_mod_cast hx
  rw [h3] at hx'
  have hs : 0 < Real.sin θ := (mul_pos_iff_of_pos_left hr).1 hx'
  have : Real.sin θ = - Real.sin (θ - Real.pi) := by rw [Real.sin_sub_pi, neg_neg]
  have := Real.sin_nonneg_of_nonneg_of_le_pi (x := θ - Real.pi) (by linarith) (by linarith)
  linarith

theorem HasAngle.left {d : Vec} {θ : ℝ} (h : HasAngle d θ) (hx : d.x < 0) : Real.pi < θ ∧ θ < 2 * Real.pi := by
  obtain ⟨h1, h2, r, hr, h3, h4⟩ := h
  have hpi := Real.pi_pos
  have hx' : (d.x:ℝ) < 0 := by exact_mod_cast hx
  have hs : Real.sin θ < 0 := by
    rw [h3] at hx'
    by_contra hc
    have := mul_nonneg hr.le (not_lt.1 hc)
    linarith
  constructor
  · by_contra hc
    have := Real.sin_nonneg_of_nonneg_of_le_pi (x := θ) h1.le (not_lt.1 hc)
    linarith
  · rcases lt_or_eq_of_le h2 with h | h
    · exact h
    · rw [h, Real.sin_two_pi] at hs; exact absurd hs (lt_irrefl _)

theorem HasAngle.vert {d : Vec} {θ : ℝ} (h : HasAngle d θ) (hx : d.x = 0) :
    (0 < d.y → θ = Real.pi) ∧ (d.y < 0 → θ = 2 * Real.pi) := by
  obtain ⟨h1, h2, r, hr, h3, h4⟩ := h
  have hpi := Real.pi_pos
  have hs : Real.sin θ = 0 := by
    rw [hx] at h3
    rcases mul_eq_zero.1 (by exact_mod_cast h3.symm : r * Real.sin θ = 0) with h | h
    · exact absurd h hr.ne'
    · exact h
  have hθ : θ = Real.pi ∨ θ = 2 * Real.pi := by
    rcases lt_trichotomy θ Real.pi with h | h | h
    · exact absurd hs (Real.sin_pos_of_pos_of_lt_pi h1 h).ne'
    · exact Or.inl h
    · rcases lt_or_eq_of_le h2 with h' | h'
      · have : Real.sin θ = - Real.sin (θ - Real.pi) := by rw [Real.sin_sub_pi, neg_neg]
        have := Real.sin_pos_of_pos_of_lt_pi (x := θ - Real.pi) (by linarith) (by linarith)
        linarith
      · exact Or.inr h'
  constructor
  · intro hy
    rcases hθ with h | h
    · exact h
    · exfalso
      have hy' : (0:ℝ) < d.y := by exact_mod_cast hy
      rw [h4, h, Real.cos_two_pi] at hy'
      linarith
  · intro hy
    rcases hθ with h | h
    · exfalso
      have hy' : (d.y:ℝ) < 0 := by exact_mod_cast hy
      rw [h4, h, Real.cos_pi] at hy'
      linarith
    · exact h

theorem HasAngle.cross {d e : Vec} {θ φ : ℝ} (h : HasAngle d θ) (h' : HasAngle e φ) :
    ∃ r : ℝ, 0 < r ∧ (d.cross e : ℝ) = r * Real.sin (φ - θ) := by
  obtain ⟨-, -, r, hr, h1, h2⟩ := h
  obtain ⟨-, -, r', hr', h3, h4⟩ := h'
  refine ⟨r * r', mul_pos hr hr', ?_⟩
  unfold Vec.cross
  push_cast
  rw [h1, h2, h3, h4, Real.sin_sub]; ring

/-- Comparison of angles less than half a angleStep apart. -/
theorem HasAngle.less {d e : Vec} {θ φ : ℝ} (h : HasAngle d θ) (h' : HasAngle e φ) (hd : |φ - θ| < Real.pi) :
    0 < d.cross e ↔ θ < φ := by
  obtain ⟨r, hr, hc⟩ := h.cross h'
  rw [abs_lt] at hd
  rw [← @Int.cast_pos ℝ, hc, mul_pos_iff_of_pos_left hr]
  constructor
  · intro hs
    by_contra hc
    have := Real.sin_nonpos_of_nonpos_of_neg_pi_le (x := φ - θ) (by linarith) (by linarith)
    linarith
  · intro hl
    exact Real.sin_pos_of_pos_of_lt_pi (by linarith) (by linarith)

theorem HasAngle.same {d e : Vec} {θ : ℝ} (h : HasAngle d θ) (h' : HasAngle e θ) : d.sameDirection e := by
  obtain ⟨-, -, r, hr, h1, h2⟩ := h
  obtain ⟨-, -, r', hr', h3, h4⟩ := h'
  refine ⟨r' / r, div_pos hr' hr, ?_, ?_⟩
  · rw [h1, h3]; field_simp
  · rw [h2, h4]; field_simp

/-- Counterclockwise angleStep from the angle `x` to the angle `y`, in `(0, 2π]`. -/
noncomputable def angleStep (x y : ℝ) : ℝ := if x < y then y - x else y - x + 2 * Real.pi

theorem turn_pos {x y : ℝ} (hx : x ≤ 2 * Real.pi) (hy : 0 < y) : 0 < angleStep x y := by
  unfold angleStep; split <;> linarith

theorem HasAngle.sweep {d e : Vec} {θ φ : ℝ} (h : HasAngle d θ) (h' : HasAngle e φ) :
    SweepAngle false d e (angleStep θ φ) ∧ SweepAngle true d e (angleStep φ θ) := by
  obtain ⟨a1, a2, r, hr, h1, h2⟩ := h
  obtain ⟨b1, b2, r', hr', h3, h4⟩ := h'
  have hpi := Real.pi_pos
  have s1 : Real.sin (angleStep θ φ) = Real.sin (φ - θ) ∧ Real.cos (angleStep θ φ) = Real.cos (φ - θ) := by
    unfold angleStep; split
    · exact ⟨rfl, rfl⟩
    · exact ⟨Real.sin_add_two_pi _, Real.cos_add_two_pi _⟩
  have s2 : Real.sin (angleStep φ θ) = Real.sin (θ - φ) ∧ Real.cos (angleStep φ θ) = Real.cos (θ - φ) := by
    unfold angleStep; split
    · exact ⟨rfl, rfl⟩
    · exact ⟨Real.sin_add_two_pi _, Real.cos_add_two_pi _⟩
  have e1 : Real.sin φ = Real.sin θ * Real.cos (φ - θ) + Real.cos θ * Real.sin (φ - θ) := by
    rw [← Real.sin_add]; congr 1; ring
  have e2 : Real.cos φ = Real.cos θ * Real.cos (φ - θ) - Real.sin θ * Real.sin (φ - θ) := by
    rw [← Real.cos_add]; congr 1; ring
  constructor
  · refine ⟨turn_pos a2 b1, by unfold angleStep; split <;> linarith, r' / r, div_pos hr' hr, ?_⟩
    simp only [Bool.false_eq_true, if_false, s1.1, s1.2]
    constructor
    · rw [h3, h1, h2, e1]; field_simp; ring
    · rw [h4, h1, h2, e2]; field_simp; ring
  · refine ⟨turn_pos b2 a1, by unfold angleStep; split <;> linarith, r' / r, div_pos hr' hr, ?_⟩
    have c1 : Real.sin (θ - φ) = - Real.sin (φ - θ) := by rw [← Real.sin_neg]; congr 1; ring
    have c2 : Real.cos (θ - φ) = Real.cos (φ - θ) := by rw [← Real.cos_neg]; congr 1; ring
    simp only [if_true, s2.1, s2.2, c1, c2, neg_neg]
    constructor
    · rw [h3, h1, h2, e1]; field_simp; ring
    · rw [h4, h1, h2, e2]; field_simp; ring

/-! ### the star of a vertex -/

/-- The end of an edge at `p` that is not `p`. -/
def Seg.far (s : Seg C) (p : Pt) : Pt := if s.a = p then s.b else s.a

/-- The edge has an end at `p`. -/
def Seg.at (s : Seg C) (p : Pt) : Prop := s.a = p ∨ s.b = p

/-- The direction in which an edge leaves `p`. -/
noncomputable def Seg.ang (s : Seg C) (p : Pt) : ℝ := angle ((s.far p).sub p)

/-- +1 for an edge starting at `p`, -1 for one ending there. -/
noncomputable def outw (p : Pt) (s : Seg C) : Int := ind (s.a = p) - ind (s.b = p)

section
variable {segs : List (Seg C)} (hp : Planar segs)
include hp

theorem Planar.ab_ne {s : Seg C} (hs : s ∈ segs) : s.a ≠ s.b := fun h => by
  have := hp.lt s hs
  rw [h] at this; exact Pt.lt_irrefl _ this

theorem Planar.far_ne {s : Seg C} (hs : s ∈ segs) {p : Pt} (h : s.at p) : s.far p ≠ p := by
  have hn := hp.ab_ne hs
  unfold Seg.far
  rcases h with h | h
  · rw [if_pos h]; intro e; exact hn (h.trans e.symm)
  · by_cases c : s.a = p
    · exact absurd (c.trans h.symm) hn
    · rw [if_neg c]; exact c

theorem Planar.hasAngle {s : Seg C} (hs : s ∈ segs) {p : Pt} (h : s.at p) :
    HasAngle ((s.far p).sub p) (s.ang p) := angle_spec (sub_ne_zero (hp.far_ne hs h))

theorem Planar.ang_inj {s t : Seg C} (hs : s ∈ segs) (ht : t ∈ segs) {p : Pt} (h : s.at p) (h' : t.at p)
    (e : s.ang p = t.ang p) : s = t := by
  have h1 := hp.hasAngle hs h
  have h2 := hp.hasAngle ht h'
  rw [← e] at h2
  have ends : ∀ u ∈ segs, u.at p → (u.a = p ∧ u.b = u.far p) ∨ (u.a = u.far p ∧ u.b = p) := by
    intro u hu hup
    unfold Seg.far
    rcases hup with h | h
    · rw [if_pos h]; exact Or.inl ⟨h, rfl⟩
    · have : u.a ≠ p := fun h' => hp.ab_ne hu (h'.trans h.symm)
      rw [if_neg this]; exact Or.inr ⟨rfl, h⟩
  exact hp.directions hs ht (ends s hs h) (ends t ht h') (h1.same h2)

theorem Planar.ang_RF {s : Seg C} (hs : s ∈ segs) {p : Pt} (h : RF p s) : s.ang p < Real.pi := by
  have h1 := hp.hasAngle hs (Or.inl h.1)
  refine h1.right ?_
  unfold Seg.far Pt.sub
  rw [if_pos h.1]
  have := h.2; rw [h.1] at this
  dsimp only; omega

theorem Planar.ang_UV {s : Seg C} (hs : s ∈ segs) {p : Pt} (h : UV p s) : s.ang p = Real.pi := by
  have h1 := hp.hasAngle hs (Or.inl h.1)
  have hl := hp.lt s hs
  rw [Pt.lt_def] at hl
  have hx := h.2
  refine (h1.vert ?_).1 ?_
  · unfold Seg.far Pt.sub
    rw [if_pos h.1, ← h.1]; dsimp only; omega
  · unfold Seg.far Pt.sub
    rw [if_pos h.1, ← h.1]; dsimp only; omega

theorem Planar.ang_LF {s : Seg C} (hs : s ∈ segs) {p : Pt} (h : LF p s) :
    Real.pi < s.ang p ∧ s.ang p < 2 * Real.pi := by
  have h1 := hp.hasAngle hs (Or.inr h.1)
  have hn : s.a ≠ p := fun h' => hp.ab_ne hs (h'.trans h.1.symm)
  refine h1.left ?_
  unfold Seg.far Pt.sub
  rw [if_neg hn, ← h.1]
  have := h.2
  dsimp only; omega

theorem Planar.ang_DV {s : Seg C} (hs : s ∈ segs) {p : Pt} (h : DV p s) : s.ang p = 2 * Real.pi := by
  have h1 := hp.hasAngle hs (Or.inr h.1)
  have hn : s.a ≠ p := fun h' => hp.ab_ne hs (h'.trans h.1.symm)
  have hl := hp.lt s hs
  rw [Pt.lt_def] at hl
  have hx := h.2
  refine (h1.vert ?_).2 ?_
  · unfold Seg.far Pt.sub
    rw [if_neg hn, ← h.1]; dsimp only; omega
  · unfold Seg.far Pt.sub
    rw [if_neg hn, ← h.1]; dsimp only; omega

/-- Order by angle in the right fan. -/
theorem Planar.ang_RF_lt {s t : Seg C} (hs : s ∈ segs) (ht : t ∈ segs) {p : Pt} (h : RF p s) (h' : RF p t) :
    s.ang p < t.ang p ↔ 0 < area2 p t.b s.b := by
  have h1 := hp.hasAngle hs (Or.inl h.1)
  have h2 := hp.hasAngle ht (Or.inl h'.1)
  have b1 := hp.ang_RF hs h
  have b2 := hp.ang_RF ht h'
  have := h1.1; have := h2.1
  rw [← h1.less h2 (by rw [abs_lt]; constructor <;> linarith)]
  unfold Seg.far Pt.sub Vec.cross area2
  rw [if_pos h.1, if_pos h'.1]
  dsimp only
  constructor <;> intro h <;> nlinarith

/-- Order by angle in the left fan. -/
theorem Planar.ang_LF_lt {s t : Seg C} (hs : s ∈ segs) (ht : t ∈ segs) {p : Pt} (h : LF p s) (h' : LF p t) :
    s.ang p < t.ang p ↔ 0 < area2 p t.a s.a := by
  have h1 := hp.hasAngle hs (Or.inr h.1)
  have h2 := hp.hasAngle ht (Or.inr h'.1)
  have b1 := hp.ang_LF hs h
  have b2 := hp.ang_LF ht h'
  have n1 : s.a ≠ p := fun e => hp.ab_ne hs (e.trans h.1.symm)
  have n2 : t.a ≠ p := fun e => hp.ab_ne ht (e.trans h'.1.symm)
  rw [← h1.less h2 (by rw [abs_lt]; constructor <;> linarith)]
  unfold Seg.far Pt.sub Vec.cross area2
  rw [if_neg n1, if_neg n2]
  dsimp only
  constructor <;> intro h <;> nlinarith

end

/-- Two segments with the same right end: order by angle is order of heights to the left. -/
theorem fan_order_left {f s : Seg C} (hf : f.a.x < f.b.x) (hs : s.a.x < s.b.x) (hb : f.b = s.b) {x : ℚ}
    (hx : x < s.b.x) : 0 < area2 s.b f.a s.a ↔ ht f x < ht s x := by
  have d1 := dx_pos hf
  have d2 := dx_pos hs
  have e : (ht s x - ht f x) * ((f.b.x - f.a.x) * (s.b.x - s.a.x)) =
      (s.b.x - x) * (area2 s.b f.a s.a : ℚ) := by
    unfold ht area2; rw [hb] at *; push_cast; field_simp; ring
  have hx' : 0 < s.b.x - x := by linarith
  rw [← Int.cast_pos (R := ℚ)]
  constructor
  · intro h
    have := mul_pos hx' h
    rw [← e] at this
    have := (mul_pos_iff_of_pos_right (mul_pos d1 d2)).1 this
    linarith
  · intro h
    have : 0 < (ht s x - ht f x) * ((f.b.x - f.a.x) * (s.b.x - s.a.x)) :=
      mul_pos (by linarith) (mul_pos d1 d2)
    rw [e] at this
    exact (mul_pos_iff_of_pos_left hx').1 this

/-! ### values around a vertex -/

/-- Winding number on the clockwise side of the edge `s` leaving `p`. -/
noncomputable def cwSide (φ : C → Int) (segs : List (Seg C)) (p : Pt) (s : Seg C) : Int :=
  open Classical in if s.a = p then botW φ segs s else botW φ segs s + φ s.c

/-- Winding number on the counterclockwise side of the edge `s` leaving `p`. -/
noncomputable def ccwSide (φ : C → Int) (segs : List (Seg C)) (p : Pt) (s : Seg C) : Int :=
  open Classical in if s.a = p then botW φ segs s + φ s.c else botW φ segs s

section
variable {segs : List (Seg C)} (hp : Planar segs)
include hp

/-- Every edge at `p` is in one of the four parts of the star. -/
theorem Planar.star_cases {s : Seg C} (hs : s ∈ segs) {p : Pt} (h : s.at p) :
    (RF p s ∧ outw p s = 1) ∨ (UV p s ∧ outw p s = 1) ∨ (LF p s ∧ outw p s = -1) ∨ (DV p s ∧ outw p s = -1) := by
  have hx := ab_x_le (hp.lt s hs)
  have hn := hp.ab_ne hs
  unfold outw
  rcases h with h | h
  · have hb : ¬ s.b = p := fun e => hn (h.trans e.symm)
    rw [ind_true h, ind_false hb]
    by_cases c : s.a.x = s.b.x
    · exact Or.inr (Or.inl ⟨⟨h, c⟩, rfl⟩)
    · exact Or.inl ⟨⟨h, by omega⟩, rfl⟩
  · have ha : ¬ s.a = p := fun e => hn (e.trans h.symm)
    rw [ind_true h, ind_false ha]
    by_cases c : s.a.x = s.b.x
    · exact Or.inr (Or.inr (Or.inr ⟨⟨h, c⟩, rfl⟩))
    · exact Or.inr (Or.inr (Or.inl ⟨⟨h, by omega⟩, rfl⟩))

omit hp in
theorem outw_zero {s : Seg C} {p : Pt} (h : ¬ s.at p) : outw p s = 0 := by
  unfold outw
  rw [ind_false fun e => h (Or.inl e), ind_false fun e => h (Or.inr e)]; rfl

theorem Planar.outw_closed {φ : C → Int} (hc : Closed φ segs) (p : Pt) : wsum φ (outw p) segs = 0 := by
  have h := hc fun v => ind (v = p)
  exact h

theorem Planar.star_sum {φ : C → Int} (hc : Closed φ segs) {p : Pt} {s : Seg C} (hs : s ∈ segs) (h : s.at p) :
    cwSide φ segs p s = wsum φ (fun f => ind (BR p f) + outw p f * ind (f.ang p < s.ang p)) segs := by
  have hpi := Real.pi_pos
  have hn := hp.ab_ne hs
  have hv : p = s.a ∨ p = s.b := h.imp Eq.symm Eq.symm
  -- an edge below the vertex is not at the vertex
  have notBR : ∀ f ∈ segs, f.at p → ¬ BR p f := by
    rintro f hf hfp ⟨⟨h1, h2⟩, h3⟩
    rcases hfp with e | e
    · rw [← e, ht_a] at h3; exact lt_irrefl _ h3
    · rw [e] at h2; exact lt_irrefl _ h2
  -- left and lower edges: use the balance at the vertex
  have viaLeft : ∀ w : Seg C → Int, (∀ f ∈ segs, w f = ind (BR p f) + outw p f * ind (f.ang p < s.ang p) - outw p f) →
      wsum φ w segs = wsum φ (fun f => ind (BR p f) + outw p f * ind (f.ang p < s.ang p)) segs := by
    intro w hw
    have : wsum φ (fun f => ind (BR p f) + outw p f * ind (f.ang p < s.ang p)) segs =
        wsum φ w segs + wsum φ (outw p) segs := by
      rw [← wsum_add]
      refine wsum_congr φ fun f hf => ?_
      rw [hw f hf]; ring
    rw [this, hp.outw_closed hc, add_zero]
  rcases hp.star_cases hs h with ⟨hc1, ho⟩ | ⟨hc1, ho⟩ | ⟨hc1, ho⟩ | ⟨hc1, ho⟩
  · -- right fan
    have hsa := hc1.1
    have as := hp.ang_RF hs hc1
    unfold cwSide
    rw [if_pos hsa]
    refine wsum_congr φ fun f hf => ?_
    rw [hsa]
    by_cases hfp : f.at p
    · rw [ind_false (notBR f hf hfp), zero_add]
      rcases hp.star_cases hf hfp with ⟨hf1, fo⟩ | ⟨hf1, fo⟩ | ⟨hf1, fo⟩ | ⟨hf1, fo⟩ <;> rw [fo]
      · rw [one_mul]
        refine ind_congr ?_
        rw [hp.ang_RF_lt hf hs hf1 hc1]
        constructor
        · rintro ⟨_, h | h⟩
          · rw [← hf1.1, ht_a] at h; exact absurd h (lt_irrefl _)
          · exact h.2
        · intro h
          exact ⟨⟨by rw [hf1.1], by rw [← hf1.1]; exact hf1.2⟩, Or.inr ⟨hf1.1, h⟩⟩
      · have := hp.ang_UV hf hf1
        rw [ind_false (P := f.ang p < s.ang p) (by linarith), ind_false]; rfl
        rintro ⟨⟨h1, h2⟩, _⟩
        have := hf1.2; rw [← hf1.1] at h2; omega
      · have := hp.ang_LF hf hf1
        rw [ind_false (P := f.ang p < s.ang p) (by linarith [this.1]), ind_false]; rfl
        rintro ⟨⟨h1, h2⟩, _⟩
        rw [hf1.1] at h2; omega
      · have := hp.ang_DV hf hf1
        rw [ind_false (P := f.ang p < s.ang p) (by linarith), ind_false]; rfl
        rintro ⟨⟨h1, h2⟩, _⟩
        rw [hf1.1] at h2; omega
    · rw [outw_zero hfp, zero_mul, add_zero]
      refine ind_congr ?_
      unfold BR
      constructor
      · rintro ⟨sf, h | h⟩
        · exact ⟨sf, h⟩
        · exact absurd (Or.inl h.1) hfp
      · rintro ⟨sf, h⟩; exact ⟨sf, Or.inl h⟩
  · -- vertical up
    have hsa := hc1.1
    have as := hp.ang_UV hs hc1
    unfold cwSide
    rw [if_pos hsa]
    refine wsum_congr φ fun f hf => ?_
    rw [hsa]
    have hl := hp.lt s hs
    rw [Pt.lt_def, hsa] at hl
    have hx2 := hc1.2
    rw [hsa] at hx2
    by_cases hfp : f.at p
    · rw [ind_false (notBR f hf hfp), zero_add]
      rcases hp.star_cases hf hfp with ⟨hf1, fo⟩ | ⟨hf1, fo⟩ | ⟨hf1, fo⟩ | ⟨hf1, fo⟩ <;> rw [fo]
      · have := hp.ang_RF hf hf1
        rw [ind_true (P := f.ang p < s.ang p) (by linarith), ind_true]; rfl
        have h3 := hf1.2
        rw [hf1.1] at h3
        refine ⟨⟨by rw [hf1.1], h3⟩, Or.inr ⟨hf1.1, ?_⟩⟩
        have e1 : area2 p s.b f.b = (s.b.y - p.y) * (f.b.x - p.x) := by
          unfold area2; rw [← hx2]; ring
        rw [e1]
        exact mul_pos (by omega) (by omega)
      · have := hp.ang_UV hf hf1
        rw [ind_false (P := f.ang p < s.ang p) (by linarith), ind_false]; rfl
        rintro ⟨⟨h1, h2⟩, _⟩
        have := hf1.2; rw [← hf1.1] at h2; omega
      · have := hp.ang_LF hf hf1
        rw [ind_false (P := f.ang p < s.ang p) (by linarith [this.1]), ind_false]; rfl
        rintro ⟨⟨h1, h2⟩, _⟩
        rw [hf1.1] at h2; omega
      · have := hp.ang_DV hf hf1
        rw [ind_false (P := f.ang p < s.ang p) (by linarith), ind_false]; rfl
        rintro ⟨⟨h1, h2⟩, _⟩
        rw [hf1.1] at h2; omega
    · rw [outw_zero hfp, zero_mul, add_zero]
      refine ind_congr ?_
      unfold BR
      constructor
      · rintro ⟨sf, h | h⟩
        · exact ⟨sf, h⟩
        · exact absurd (Or.inl h.1) hfp
      · rintro ⟨sf, h⟩; exact ⟨sf, Or.inl h⟩
  · -- left fan
    have hsb := hc1.1
    have hsa : ¬ s.a = p := fun e => hn (e.trans hsb.symm)
    have as := hp.ang_LF hs hc1
    have ss : s.spans (p.x - 1) := by
      have := hc1.2
      rw [hsb] at this
      exact ⟨by omega, by rw [hsb]; omega⟩
    unfold cwSide
    rw [if_neg hsa, hp.botW_eq_lowSum φ hs hc1.2, ← hp.lowSum_const hc hs (p.x - 1) ss]
    have hal := around_left hp hs hv hc
    have e1 : lowSum φ segs s (p.x - 1) + φ s.c =
        wsum φ (fun f => ind (BL p f)) segs +
          wsum φ (fun f => ind (LF p f ∧ ¬ f.ang p < s.ang p)) segs := by
      rw [← wsum_single φ hp.nodup hs]
      unfold lowSum
      rw [← wsum_add, ← wsum_add]
      refine wsum_congr φ fun f hf => ?_
      by_cases hLF : LF p f
      · have sf : f.spans (p.x - 1) := by
          have h2 := hLF.2
          rw [hLF.1] at h2
          exact ⟨by omega, by rw [hLF.1]; omega⟩
        have nBL : ¬ BL p f := by
          rintro ⟨_, h⟩
          rw [← hLF.1, ht_b hLF.2] at h; exact lt_irrefl _ h
        rw [ind_false nBL, zero_add]
        by_cases hfs : f = s
        · subst hfs
          rw [ind_false (fun h => lt_irrefl _ h.2), ind_true rfl, ind_true ⟨hLF, lt_irrefl _⟩]; rfl
        · rw [ind_false hfs, add_zero]
          refine ind_congr ?_
          have hx1 : mid (p.x - 1) < (s.b.x:ℚ) := by
            unfold mid; rw [hsb]; push_cast; linarith
          rw [← fan_order_left hLF.2 hc1.2 (hLF.1.trans hsb.symm) hx1]
          have hlt := hp.ang_LF_lt hf hs hLF hc1
          have hlt' := hp.ang_LF_lt hs hf hc1 hLF
          have hsw := fan_swap p f.a s.a
          have hne : f.ang p ≠ s.ang p := fun e => hfs (hp.ang_inj hf hs (Or.inr hLF.1) h e)
          rw [hsb]
          constructor
          · rintro ⟨_, h⟩
            refine ⟨hLF, ?_⟩
            rw [hlt, hsw]; omega
          · rintro ⟨_, h⟩
            refine ⟨sf, ?_⟩
            rw [← hlt']
            exact lt_of_le_of_ne (not_lt.1 h) hne.symm
      · have hfs : f ≠ s := by rintro rfl; exact hLF hc1
        rw [ind_false hfs, ind_false (P := LF p f ∧ _) (fun h => hLF h.1), add_zero, add_zero]
        refine ind_congr ?_
        unfold BL
        have key : f.spans (p.x - 1) → (ht f (mid (p.x - 1)) < ht s (mid (p.x - 1)) ↔ ht f p.x < p.y) := by
          intro sf
          have hsx : ht s p.x = p.y := by rw [← hsb, ht_b hc1.2]
          constructor
          · intro h
            have h1 := hp.of_mid hf hs sf ss (x := p.x) (by push_cast; linarith) (by push_cast; linarith) h
            rw [hsx] at h1
            rcases lt_or_eq_of_le h1 with h2 | h2
            · exact h2
            · exfalso
              obtain ⟨sf1, sf2⟩ := sf
              by_cases hlt : p.x < f.b.x
              · exact absurd h2 (hp.vertex_ne hf hs hv (by omega) hlt)
              · have e : f.b.x = p.x := by omega
                rw [← e, ht_b (by omega)] at h2
                exact hLF ⟨Pt.ext_iff'.2 ⟨e, by exact_mod_cast h2⟩, by omega⟩
          · intro h
            rw [← hsx] at h
            exact hp.mid_of hf hs sf ss (x := p.x) (by push_cast; linarith) (by push_cast; linarith) h
        constructor
        · rintro ⟨sf, h⟩; exact ⟨sf, (key sf).1 h⟩
        · rintro ⟨sf, h⟩; exact ⟨sf, (key sf).2 h⟩
    rw [e1, hal, ← wsum_add, ← wsum_add]
    refine viaLeft _ fun f hf => ?_
    by_cases hfp : f.at p
    · rw [ind_false (notBR f hf hfp)]
      have hfn := hp.ab_ne hf
      rcases hp.star_cases hf hfp with ⟨hf1, fo⟩ | ⟨hf1, fo⟩ | ⟨hf1, fo⟩ | ⟨hf1, fo⟩ <;> rw [fo]
      · have := hp.ang_RF hf hf1
        rw [ind_true (P := f.ang p < s.ang p) (by linarith), ind_false (P := DV p f), ind_false (P := LF p f ∧ _)]; rfl
        · rintro ⟨⟨h, _⟩, _⟩; exact hfn (hf1.1.trans h.symm)
        · rintro ⟨h, _⟩; exact hfn (hf1.1.trans h.symm)
      · have := hp.ang_UV hf hf1
        rw [ind_true (P := f.ang p < s.ang p) (by linarith), ind_false (P := DV p f), ind_false (P := LF p f ∧ _)]; rfl
        · rintro ⟨⟨h, _⟩, _⟩; exact hfn (hf1.1.trans h.symm)
        · rintro ⟨h, _⟩; exact hfn (hf1.1.trans h.symm)
      · rw [ind_false (P := DV p f) (fun h => by have := h.2; have := hf1.2; omega)]
        by_cases c : f.ang p < s.ang p
        · rw [ind_true c, ind_false (fun h => h.2 c)]; rfl
        · rw [ind_false c, ind_true ⟨hf1, c⟩]; rfl
      · have := hp.ang_DV hf hf1
        rw [ind_false (P := f.ang p < s.ang p) (by linarith), ind_true hf1, ind_false (P := LF p f ∧ _)]; rfl
        rintro ⟨h, _⟩
        have := h.2; have := hf1.2; omega
    · rw [outw_zero hfp, ind_false (P := DV p f) (fun h => hfp (Or.inr h.1)),
        ind_false (P := LF p f ∧ _) (fun h => hfp (Or.inr h.1.1))]
      ring
  · -- vertical down
    have hsb := hc1.1
    have hsa : ¬ s.a = p := fun e => hn (e.trans hsb.symm)
    have as := hp.ang_DV hs hc1
    have h2 := hc1.2
    unfold cwSide
    rw [if_neg hsa]
    have hl := hp.lt s hs
    rw [Pt.lt_def] at hl
    have hy : s.a.y < s.b.y := by omega
    have hyq : (s.a.y:ℚ) < s.b.y := by exact_mod_cast hy
    have e1 : botW φ segs s = wsum φ (fun f => ind (BR p f)) segs := by
      refine wsum_congr φ fun f hf => ind_congr ?_
      unfold BR
      rw [← hsb, ← h2]
      constructor
      · rintro ⟨sf, h | ⟨h, _⟩⟩
        · exact ⟨sf, by linarith⟩
        · exact ⟨sf, by rw [← h, ht_a, h]; exact hyq⟩
      · rintro ⟨sf, h⟩
        refine ⟨sf, ?_⟩
        by_cases hlow : ht f s.a.x < s.a.y
        · exact Or.inl hlow
        · right
          push Not at hlow
          have hne : f ≠ s := by rintro rfl; have := sf.x; omega
          have b := sf.bounds
          have o1 := onSeg_ht sf.x (x := s.a.x) b.1 (by linarith [b.2])
          have o2 := onSeg_vert h2 hy hlow h.le
          have hm' := hp.meet hf hs hne _ o1 o2
          have ea : (⟨s.a.x, ht f s.a.x⟩ : QPt) = s.a.q := by
            rcases hm'.2 with h' | h'
            · exact h'
            · simp only [Pt.q, QPt.mk.injEq] at h'; linarith [h'.2]
          have fa : f.a = s.a := by
            rcases hm'.1 with h' | h'
            · exact Pt.q_inj (h'.symm.trans ea)
            · simp only [Pt.q, QPt.mk.injEq] at h'; linarith [h'.1, b.2]
          refine ⟨fa, ?_⟩
          have e1 : area2 s.a s.b f.b = (s.b.y - s.a.y) * (f.b.x - s.a.x) := by
            unfold area2; rw [← h2]; ring
          rw [e1]
          have := sf.2
          exact mul_pos (by omega) (by omega)
    rw [e1, ← wsum_single φ hp.nodup hs, ← wsum_add]
    refine viaLeft _ fun f hf => ?_
    by_cases hfp : f.at p
    · have hfn := hp.ab_ne hf
      by_cases hfs : f = s
      · subst hfs
        rw [ind_true rfl, ind_false (P := f.ang p < f.ang p) (lt_irrefl _), ho]; ring
      · have hlt : f.ang p < s.ang p := by
          rw [as]
          have h1 := (hp.hasAngle hf hfp).2.1
          refine lt_of_le_of_ne h1 fun e => hfs ?_
          exact hp.ang_inj hf hs hfp h (e.trans as.symm)
        rw [ind_false hfs, ind_true hlt]; ring
    · have hfs : f ≠ s := by rintro rfl; exact hfp h
      rw [outw_zero hfp, ind_false hfs]; ring

theorem Planar.ccwSide_eq (φ : C → Int) {p : Pt} {s : Seg C} (hs : s ∈ segs) (h : s.at p) :
    ccwSide φ segs p s = cwSide φ segs p s + φ s.c * outw p s := by
  have hn := hp.ab_ne hs
  unfold ccwSide cwSide outw
  rcases h with h | h
  · have hb : ¬ s.b = p := fun e => hn (h.trans e.symm)
    rw [if_pos h, if_pos h, ind_true h, ind_false hb]; ring
  · have ha : ¬ s.a = p := fun e => hn (e.trans h.symm)
    rw [if_neg ha, if_neg ha, ind_true h, ind_false ha]; ring

end

end IOverlay
