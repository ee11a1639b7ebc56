/-
The choice of the next edge at a crossing (core/nearest_vector.rs). Property C23.
-/
import Verif.Extract
import Mathlib.Analysis.SpecialFunctions.Trigonometric.Basic
import Mathlib.Analysis.SpecialFunctions.Complex.Arg

namespace IOverlay

/-! ### specification -/

/-- Turning the vector `a` by the angle `θ` (clockwise or counterclockwise), `0 < θ ≤ 2π`, gives the
direction of `p`. -/
def SweepAngle (clockwise : Bool) (a p : Vec) (θ : ℝ) : Prop :=
  0 < θ ∧ θ ≤ 2 * Real.pi ∧ ∃ r : ℝ, 0 < r ∧
    let s := if clockwise then - Real.sin θ else Real.sin θ
    (p.x : ℝ) = r * (a.x * Real.cos θ - a.y * s) ∧ (p.y : ℝ) = r * (a.x * s + a.y * Real.cos θ)

/-- `p` points in the same direction as `a`. -/
def Vec.sameDirection (a p : Vec) : Prop := ∃ r : ℝ, 0 < r ∧ (p.x : ℝ) = r * a.x ∧ (p.y : ℝ) = r * a.y

theorem sweepAngle_exists (clockwise : Bool) {a p : Vec} (ha : a ≠ ⟨0, 0⟩) (hp : p ≠ ⟨0, 0⟩) :
    ∃ θ, SweepAngle clockwise a p θ := by
  -- counterclockwise angle of the quotient
  have hn : ∀ v : Vec, v ≠ ⟨0, 0⟩ → (0:ℝ) < (v.x:ℝ)^2 + (v.y:ℝ)^2 := by
    intro v hv
    by_contra hc
    have h1 : (v.x:ℝ) = 0 := by nlinarith [sq_nonneg (v.x:ℝ), sq_nonneg (v.y:ℝ)]
    have h2 : (v.y:ℝ) = 0 := by nlinarith [sq_nonneg (v.x:ℝ), sq_nonneg (v.y:ℝ)]
    apply hv
    rcases v with ⟨vx, vy⟩
    simp only [Int.cast_eq_zero] at h1 h2
    rw [h1, h2]
  obtain ⟨N, hN⟩ : ∃ N : ℝ, N = (a.x:ℝ)^2 + (a.y:ℝ)^2 := ⟨_, rfl⟩
  have hN0 : 0 < N := by rw [hN]; exact hn a ha
  have hP0 := hn p hp
  let z : ℂ := ⟨((a.x:ℝ) * p.x + a.y * p.y) / N, ((a.x:ℝ) * p.y - a.y * p.x) / N⟩
  have hz : z ≠ 0 := by
    intro h
    have h1 := congrArg Complex.re h
    have h2 := congrArg Complex.im h
    simp only [z, Complex.zero_re, Complex.zero_im, div_eq_zero_iff, hN0.ne', or_false] at h1 h2
    have : ((a.x:ℝ) * p.x + a.y * p.y)^2 + ((a.x:ℝ) * p.y - a.y * p.x)^2 = N * ((p.x:ℝ)^2 + (p.y:ℝ)^2) := by
      rw [hN]; ring
    rw [h1, h2] at this
    have := mul_pos hN0 hP0
    nlinarith
  have hr : 0 < ‖z‖ := norm_pos_iff.2 hz
  have hc : ‖z‖ * Real.cos z.arg = ((a.x:ℝ) * p.x + a.y * p.y) / N := Complex.norm_mul_cos_arg z
  have hs : ‖z‖ * Real.sin z.arg = ((a.x:ℝ) * p.y - a.y * p.x) / N := Complex.norm_mul_sin_arg z
  have ex : ‖z‖ * (a.x * Real.cos z.arg - a.y * Real.sin z.arg) = p.x := by
    have : ‖z‖ * (a.x * Real.cos z.arg - a.y * Real.sin z.arg) =
        a.x * (‖z‖ * Real.cos z.arg) - a.y * (‖z‖ * Real.sin z.arg) := by ring
    rw [this, hc, hs]
    field_simp
    rw [hN]; ring
  have ey : ‖z‖ * (a.x * Real.sin z.arg + a.y * Real.cos z.arg) = p.y := by
    have : ‖z‖ * (a.x * Real.sin z.arg + a.y * Real.cos z.arg) =
        a.x * (‖z‖ * Real.sin z.arg) + a.y * (‖z‖ * Real.cos z.arg) := by ring
    rw [this, hc, hs]
    field_simp
    rw [hN]; ring
  have hlo := Complex.neg_pi_lt_arg z
  have hhi := Complex.arg_le_pi z
  have hpi := Real.pi_pos
  cases clockwise
  · by_cases h0 : 0 < z.arg
    · refine ⟨z.arg, h0, by linarith, ‖z‖, hr, ?_⟩
      simp only [Bool.false_eq_true, if_false]
      exact ⟨ex.symm, ey.symm⟩
    · refine ⟨z.arg + 2 * Real.pi, by linarith, by linarith, ‖z‖, hr, ?_⟩
      simp only [Bool.false_eq_true, if_false, Real.sin_add_two_pi, Real.cos_add_two_pi]
      exact ⟨ex.symm, ey.symm⟩
  · by_cases h0 : z.arg < 0
    · refine ⟨- z.arg, by linarith, by linarith, ‖z‖, hr, ?_⟩
      simp only [if_true, Real.sin_neg, Real.cos_neg, neg_neg]
      exact ⟨ex.symm, ey.symm⟩
    · refine ⟨2 * Real.pi - z.arg, by linarith, by linarith, ‖z‖, hr, ?_⟩
      simp only [if_true, Real.sin_two_pi_sub, Real.cos_two_pi_sub, neg_neg]
      exact ⟨ex.symm, ey.symm⟩

/-! ### the sweep angle and the cross product -/

section
variable {cw : Bool} {a p q : Vec} {θ φ : ℝ}

theorem normSq_pos {v : Vec} (hv : v ≠ ⟨0, 0⟩) : (0:ℝ) < (v.x:ℝ)^2 + (v.y:ℝ)^2 := by
  by_contra hc
  have h1 : (v.x:ℝ) = 0 := by nlinarith [sq_nonneg (v.x:ℝ), sq_nonneg (v.y:ℝ)]
  have h2 : (v.y:ℝ) = 0 := by nlinarith [sq_nonneg (v.x:ℝ), sq_nonneg (v.y:ℝ)]
  apply hv
  rcases v with ⟨vx, vy⟩
  simp only [Int.cast_eq_zero] at h1 h2
  rw [h1, h2]

/-- `rotation_factor`. -/
def rotOf (cw : Bool) : Int := if cw then 1 else -1

theorem SweepAngle.cross (h : SweepAngle cw a p θ) : ∃ r : ℝ, 0 < r ∧
    ((a.cross p * rotOf cw : Int) : ℝ) = - (r * ((a.x:ℝ)^2 + (a.y:ℝ)^2) * Real.sin θ) := by
  obtain ⟨-, -, r, hr, h1, h2⟩ := h
  refine ⟨r, hr, ?_⟩
  unfold Vec.cross rotOf
  push_cast
  rw [h1, h2]
  cases cw <;> simp <;> ring

theorem SweepAngle.cross₂ (h : SweepAngle cw a p θ) (h' : SweepAngle cw a q φ) : ∃ r : ℝ, 0 < r ∧
    ((p.cross q * rotOf cw : Int) : ℝ) = - (r * ((a.x:ℝ)^2 + (a.y:ℝ)^2) * Real.sin (φ - θ)) := by
  obtain ⟨-, -, r, hr, h1, h2⟩ := h
  obtain ⟨-, -, r', hr', h1', h2'⟩ := h'
  refine ⟨r * r', mul_pos hr hr', ?_⟩
  unfold Vec.cross rotOf
  push_cast
  rw [h1, h2, h1', h2', Real.sin_sub]
  cases cw <;> simp <;> ring

theorem SweepAngle.lt_two_pi (h : SweepAngle cw a p θ) (hs : ¬ a.sameDirection p) : θ < 2 * Real.pi := by
  rcases lt_or_eq_of_le h.2.1 with h' | h'
  · exact h'
  · exfalso
    obtain ⟨-, -, r, hr, h1, h2⟩ := h
    rw [h'] at h1 h2
    apply hs
    refine ⟨r, hr, ?_, ?_⟩
    · rw [h1]; cases cw <;> simp
    · rw [h2]; cases cw <;> simp

/-- The test `more than 180°`. -/
theorem SweepAngle.more (h : SweepAngle cw a p θ) (ha : a ≠ ⟨0, 0⟩) (hs : ¬ a.sameDirection p) :
    (a.cross p * rotOf cw ≥ 0) ↔ Real.pi ≤ θ := by
  obtain ⟨r, hr, e⟩ := h.cross
  have hN := normSq_pos ha
  have h2 := h.lt_two_pi hs
  have h0 := h.1
  have hpi := Real.pi_pos
  have e' : (a.cross p * rotOf cw ≥ 0) ↔ Real.sin θ ≤ 0 := by
    rw [ge_iff_le, ← @Int.cast_nonneg_iff ℝ, e]
    constructor
    · intro h
      by_contra hc
      have := mul_pos (mul_pos hr hN) (not_le.1 hc)
      linarith
    · intro h
      have := mul_nonneg (mul_pos hr hN).le (neg_nonneg.2 h)
      linarith
  rw [e']
  constructor
  · intro hsn
    by_contra hc
    exact absurd (Real.sin_pos_of_pos_of_lt_pi h0 (not_le.1 hc)) (not_lt.2 hsn)
  · intro hp
    have : Real.sin θ = - Real.sin (θ - Real.pi) := by rw [Real.sin_sub_pi, neg_neg]
    rw [this]
    have := Real.sin_nonneg_of_nonneg_of_le_pi (x := θ - Real.pi) (by linarith) (by linarith)
    linarith

/-- The comparison of two vectors on the same side. -/
theorem SweepAngle.less (h : SweepAngle cw a p θ) (h' : SweepAngle cw a q φ) (ha : a ≠ ⟨0, 0⟩)
    (hd : |φ - θ| < Real.pi) : (p.cross q * rotOf cw < 0) ↔ θ < φ := by
  obtain ⟨r, hr, e⟩ := h.cross₂ h'
  have hN := normSq_pos ha
  rw [abs_lt] at hd
  have e' : (p.cross q * rotOf cw < 0) ↔ 0 < Real.sin (φ - θ) := by
    rw [← @Int.cast_lt_zero ℝ, e]
    constructor
    · intro h
      by_contra hc
      have := mul_nonneg (mul_pos hr hN).le (neg_nonneg.2 (not_lt.1 hc))
      linarith
    · intro h
      have := mul_pos (mul_pos hr hN) h
      linarith
  rw [e']
  constructor
  · intro hs
    by_contra hc
    have := Real.sin_nonpos_of_nonpos_of_neg_pi_le (x := φ - θ) (by linarith) (by linarith)
    linarith
  · intro hl
    exact Real.sin_pos_of_pos_of_lt_pi (by linarith) (by linarith)

end

/-! ### the search -/

/-- All candidates of the search, in the order they are given: `new` takes the first, `add` the others. -/
def nearest (c a : Pt) (clockwise : Bool) : List (Pt × Nat) → Option NearestVector
  | [] => none
  | (p, id) :: rest => some (rest.foldl (fun s e => s.add e.1 e.2) (NearestVector.new c a p id clockwise))

/-- State of the search: the best vector so far belongs to a candidate of the smallest angle. -/
structure NearestOk (c a : Pt) (cw : Bool) (seen : List (Pt × Nat)) (s : NearestVector) : Prop where
  hc : s.c = c
  hva : s.va = a.sub c
  hrot : s.rotationFactor = rotOf cw
  more : s.abMore180 = decide ((a.sub c).cross s.vb * rotOf cw ≥ 0)
  best : ∃ e ∈ seen, e.2 = s.bestId ∧ s.vb = e.1.sub c
  least : ∀ θ, SweepAngle cw (a.sub c) s.vb θ → ∀ e ∈ seen, ∀ φ, SweepAngle cw (a.sub c) (e.1.sub c) φ → θ ≤ φ

theorem sweep_unique {cw : Bool} {a p : Vec} {θ φ : ℝ} (ha : a ≠ ⟨0, 0⟩) (hs : ¬ a.sameDirection p)
    (h : SweepAngle cw a p θ) (h' : SweepAngle cw a p φ) : θ = φ := by
  have hpi := Real.pi_pos
  have c1 := h.more ha hs
  have c2 := h'.more ha hs
  have b1 := h.lt_two_pi hs
  have b2 := h'.lt_two_pi hs
  have z1 := h.1
  have z2 := h'.1
  have hd : |φ - θ| < Real.pi := by
    rw [abs_lt]
    by_cases hc : a.cross p * rotOf cw ≥ 0
    · have := c1.1 hc; have := c2.1 hc
      constructor <;> linarith
    · have := not_le.1 fun h => hc (c1.2 h)
      have := not_le.1 fun h => hc (c2.2 h)
      constructor <;> linarith
  have hd' : |θ - φ| < Real.pi := by rwa [abs_sub_comm]
  have l1 := h.less h' ha hd
  have l2 := h'.less h ha hd'
  have : p.cross p = 0 := by unfold Vec.cross; ring
  rw [this, zero_mul] at l1 l2
  rcases lt_trichotomy θ φ with hl | hl | hl
  · exact absurd (l1.2 hl) (lt_irrefl _)
  · exact hl
  · exact absurd (l2.2 hl) (lt_irrefl _)

theorem nearestOk_add {c a : Pt} {cw : Bool} {seen : List (Pt × Nat)} {s : NearestVector}
    (ha : a.sub c ≠ ⟨0, 0⟩) (hseen : ∀ e ∈ seen, e.1.sub c ≠ ⟨0, 0⟩ ∧ ¬ (a.sub c).sameDirection (e.1.sub c))
    (h : NearestOk c a cw seen s) (p : Pt) (id : Nat)
    (hp : p.sub c ≠ ⟨0, 0⟩ ∧ ¬ (a.sub c).sameDirection (p.sub c)) :
    NearestOk c a cw (seen ++ [(p, id)]) (s.add p id) := by
  have hpi := Real.pi_pos
  obtain ⟨eb, ebm, ebi, ebv⟩ := h.best
  have hvb := hseen eb ebm
  rw [← ebv] at hvb
  obtain ⟨θb, tb⟩ := sweepAngle_exists cw ha hvb.1
  obtain ⟨θp, tp⟩ := sweepAngle_exists cw ha hp.1
  have mb := tb.more ha hvb.2
  have mp := tp.more ha hp.2
  have b1 := tb.lt_two_pi hvb.2
  have b2 := tp.lt_two_pi hp.2
  have z1 := tb.1
  have z2 := tp.1
  -- the two possible outcomes
  have keep : θb ≤ θp → NearestOk c a cw (seen ++ [(p, id)]) s := by
    intro hle
    refine ⟨h.hc, h.hva, h.hrot, h.more, ⟨eb, List.mem_append_left _ ebm, ebi, ebv⟩, ?_⟩
    intro θ hθ e he φ hφ
    rcases List.mem_append.1 he with he | he
    · exact h.least θ hθ e he φ hφ
    · rw [List.mem_singleton] at he
      subst he
      rw [sweep_unique ha hvb.2 hθ tb, sweep_unique ha hp.2 hφ tp]
      exact hle
  have take : θp ≤ θb → ∀ b, b = decide ((a.sub c).cross (p.sub c) * rotOf cw ≥ 0) →
      NearestOk c a cw (seen ++ [(p, id)]) ⟨c, a.sub c, p.sub c, b, id, rotOf cw⟩ := by
    intro hle b hb
    refine ⟨rfl, rfl, rfl, hb, ⟨(p, id), by simp, rfl, rfl⟩, ?_⟩
    intro θ hθ e he φ hφ
    have e1 := sweep_unique ha hp.2 hθ tp
    rcases List.mem_append.1 he with he | he
    · have := h.least θb tb e he φ hφ
      rw [e1]; linarith
    · rw [List.mem_singleton] at he
      subst he
      rw [e1, sweep_unique ha hp.2 hφ tp]
  unfold NearestVector.add
  dsimp only
  rw [h.hc, h.hva, h.hrot, h.more]
  by_cases cb : (a.sub c).cross s.vb * rotOf cw ≥ 0
  · have hb := mb.1 cb
    by_cases cp : (a.sub c).cross (p.sub c) * rotOf cw ≥ 0
    · have hp' := mp.1 cp
      rw [if_pos (by rw [decide_eq_true cb, decide_eq_true cp])]
      have hd : |θb - θp| < Real.pi := by rw [abs_lt]; constructor <;> linarith
      have hl := tp.less tb ha hd
      split
      · rename_i hlt
        exact take (hl.1 hlt).le _ (by rw [decide_eq_true cb, decide_eq_true cp])
      · rename_i hlt
        exact keep (not_lt.1 fun h => hlt (hl.2 h))
    · have hp' := not_le.1 fun h => cp (mp.2 h)
      rw [if_neg (by rw [decide_eq_true cb, decide_eq_false cp]; simp), decide_eq_true cb, if_pos rfl]
      exact take (by linarith) _ (decide_eq_false cp).symm
  · have hb := not_le.1 fun h => cb (mb.2 h)
    by_cases cp : (a.sub c).cross (p.sub c) * rotOf cw ≥ 0
    · have hp' := mp.1 cp
      rw [if_neg (by rw [decide_eq_false cb, decide_eq_true cp]; simp), decide_eq_false cb, if_neg (by simp)]
      exact keep (by linarith)
    · have hp' := not_le.1 fun h => cp (mp.2 h)
      rw [if_pos (by rw [decide_eq_false cb, decide_eq_false cp])]
      have hd : |θb - θp| < Real.pi := by rw [abs_lt]; constructor <;> linarith
      have hl := tp.less tb ha hd
      split
      · rename_i hlt
        exact take (hl.1 hlt).le _ (by rw [decide_eq_false cb, decide_eq_false cp])
      · rename_i hlt
        exact keep (not_lt.1 fun h => hlt (hl.2 h))

theorem nearestOk_new {c a p : Pt} {id : Nat} {cw : Bool} (ha : a.sub c ≠ ⟨0, 0⟩)
    (hp : ¬ (a.sub c).sameDirection (p.sub c)) :
    NearestOk c a cw [(p, id)] (NearestVector.new c a p id cw) := by
  have hl : ∀ θ, SweepAngle cw (a.sub c) (p.sub c) θ → ∀ e ∈ [(p, id)], ∀ φ,
      SweepAngle cw (a.sub c) (e.1.sub c) φ → θ ≤ φ := by
    intro θ h1 e he φ h2
    rw [List.mem_singleton] at he
    subst he
    exact (sweep_unique ha hp h1 h2).le
  unfold NearestVector.new
  cases cw
  · refine ⟨rfl, rfl, rfl, ?_, ⟨(p, id), by simp, rfl, rfl⟩, hl⟩
    simp only [Bool.false_eq_true, if_false, rotOf]
    congr 1
    rw [eq_iff_iff]
    constructor <;> intro h <;> linarith
  · refine ⟨rfl, rfl, rfl, ?_, ⟨(p, id), by simp, rfl, rfl⟩, hl⟩
    simp [rotOf]

theorem nearest_spec {c a : Pt} {cw : Bool} {cands : List (Pt × Nat)} {s : NearestVector}
    (ha : a ≠ c) (hc : ∀ e ∈ cands, e.1 ≠ c ∧ ¬ (a.sub c).sameDirection (e.1.sub c))
    (h : nearest c a cw cands = some s) : NearestOk c a cw cands s := by
  have nz : ∀ {p q : Pt}, p ≠ q → p.sub q ≠ ⟨0, 0⟩ := by
    intro p q h he
    apply h
    unfold Pt.sub at he
    simp only [Vec.mk.injEq] at he
    rcases p with ⟨px, py⟩; rcases q with ⟨qx, qy⟩
    simp only [Pt.mk.injEq] at *
    omega
  rcases cands with _ | ⟨⟨p, id⟩, rest⟩
  · simp [nearest] at h
  · rw [nearest] at h
    obtain rfl := Option.some.inj h
    have : ∀ (rest seen : List (Pt × Nat)) (s : NearestVector),
        (∀ e ∈ seen ++ rest, e.1 ≠ c ∧ ¬ (a.sub c).sameDirection (e.1.sub c)) → NearestOk c a cw seen s →
        NearestOk c a cw (seen ++ rest) (rest.foldl (fun s e => s.add e.1 e.2) s) := by
      intro rest
      induction rest with
      | nil => intro seen s _ h; simpa using h
      | cons e rest ih =>
        intro seen s hall hs
        have he := hall e (by simp)
        have := nearestOk_add (nz ha) (fun e he => ⟨nz (hall e (by simp [he])).1, (hall e (by simp [he])).2⟩) hs e.1 e.2
          ⟨nz he.1, he.2⟩
        have := ih (seen ++ [e]) _ (by simpa using hall) this
        simpa using this
    exact this rest [(p, id)] _ hc (nearestOk_new (nz ha) (hc (p, id) (by simp)).2)

end IOverlay
