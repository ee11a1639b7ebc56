/-
The edges registered for an outlined path are its sides, rounded to the grid (proofs for C77).
-/
import Verif.OutlineCorner
import Verif.StrokePath

namespace IOverlay
open Complex

variable {toInt : ℂ → Pt} {ratio : ℝ}

/-- An arc from its first point on. -/
theorem arc_forward (c p p' : ℂ) (r φ : ℝ) (n : Nat) (hn : 0 < n) (hp : p' = p * exp (φ * I)) :
    toInt (c + p * r) :: (realOps toInt ratio).arc (Real.cos (φ / n), Real.sin (φ / n)) c p r n ++
      [toInt (c + p' * r)] = (arcPoints c (p * r) φ n).map toInt := by
  obtain ⟨m, rfl⟩ : ∃ m, n = m + 1 := ⟨n - 1, by omega⟩
  have hn' : ((m + 1 : ℕ) : ℝ) ≠ 0 := by positivity
  have hpt : ∀ i : ℕ, (realOps toInt ratio).arcPoint (Real.cos (φ / (m + 1 : ℕ)), Real.sin (φ / (m + 1 : ℕ))) c p r i =
      toInt (c + p * r * exp ((φ / (m + 1 : ℕ) * (i : ℝ) : ℝ) * I)) := by
    intro i
    unfold FloatOps.arcPoint
    show toInt (c + ((realOps toInt ratio).rotate (Real.cos (φ / (m + 1 : ℕ))) (Real.sin (φ / (m + 1 : ℕ))))^[i] p * r) = _
    rw [rotate_iter, polar, ← Complex.exp_nat_mul]
    congr 2
    rw [show ((i : ℂ) * (((φ / (m + 1 : ℕ) : ℝ) : ℂ) * I)) = ((φ / (m + 1 : ℕ) * (i : ℝ) : ℝ) : ℂ) * I by push_cast; ring]
    ring
  unfold arcPoints FloatOps.arc
  rw [List.range_succ, List.range_succ_eq_map, List.map_append, List.map_append, List.map_cons, List.map_cons, List.map_map,
    List.map_map]
  simp only [List.map_cons, List.map_nil, Nat.add_sub_cancel]
  congr 1
  · congr 1
    · congr 1; simp
    · refine List.map_congr_left fun i _ => ?_
      rw [hpt]; rfl
  · congr 2
    rw [div_mul_cancel₀ _ hn', hp]
    ring

open Classical in
/-- The points joined at the corner `v`, in the direction of the path. -/
noncomputable def dirArc (toInt : ℂ → Pt) (j : LineJoin) (δ : ℝ) (u v w : ℂ) : List ℂ :=
  if OuterCorner δ u v w then (if 0 < δ then cornerArc toInt j δ u v w else (cornerArc toInt j δ u v w).reverse)
  else [v + outShift δ u v, v + outShift δ v w]

theorem turns_iff (δ : ℝ) (u v w : ℂ) :
    (realOps toInt ratio).le (realOps toInt ratio).zero ((realOps toInt ratio).cross (unitTo u v) (unitTo v w)) = decide (0 ≤ -δ) ↔
      ¬ OuterCorner δ u v w := by
  change decide (0 ≤ bend u v w) = decide (0 ≤ -δ) ↔ _
  unfold OuterCorner
  by_cases hδ : 0 < δ
  · rw [if_pos hδ, decide_eq_false (by linarith : ¬ (0 : ℝ) ≤ -δ), decide_eq_false_iff_not]
  · rw [if_neg hδ, decide_eq_true (by linarith : (0 : ℝ) ≤ -δ), decide_eq_true_iff, not_lt]

theorem oext_side (δ : ℝ) (x u v : ℂ) : x + I * unitTo u v * ((-δ : ℝ) : ℂ) = x + outShift δ u v := by
  unfold outShift halfLeft; push_cast; ring

/-- The extra points of a join. -/
theorem extra_dirArc (j : LineJoin) {δ : ℝ} {u v w : ℂ} (h1 : u ≠ v) (h2 : v ≠ w) {ps : List Pt}
    (h : (j.normalize.oBuild (-δ)).OExtra (realOps toInt j.normalize.ratio) ((realOps toInt j.normalize.ratio).oSection (-δ) u v)
      ((realOps toInt j.normalize.ratio).oSection (-δ) v w) ps) :
    toInt (v + outShift δ u v) :: ps ++ [toInt (v + outShift δ v w)] = (dirArc toInt j δ u v w).map toInt := by
  classical
  have u0 := unitTo_unit h1
  have u1 := unitTo_unit h2
  obtain ⟨b1, b2⟩ := dot_range u0 u1
  obtain ⟨f0, f1⟩ := bendAngle_range u v w
  have hcos : Real.cos (bendAngle u v w) = (unitTo u v).re * (unitTo v w).re + (unitTo u v).im * (unitTo v w).im :=
    Real.cos_arccos b1 b2
  have hpi := Real.pi_pos
  have straight : ¬ OuterCorner δ u v w → ps = [] →
      toInt (v + outShift δ u v) :: ps ++ [toInt (v + outShift δ v w)] = (dirArc toInt j δ u v w).map toInt := by
    intro ho hps
    unfold dirArc
    rw [if_neg ho, hps]; rfl
  -- what is to be shown at an outer corner
  have e1 : joinFrom δ u v w = v - I * (if 0 < δ then unitTo u v else -unitTo v w) * (|δ| : ℝ) := by
    unfold joinFrom
    split
    · exact outShift_pos ‹_› _ _ _
    · exact outShift_neg ‹_› _ _ _
  have e2 : joinTo δ u v w = v - I * (if 0 < δ then unitTo v w else -unitTo u v) * (|δ| : ℝ) := by
    unfold joinTo
    split
    · exact outShift_pos ‹_› _ _ _
    · exact outShift_neg ‹_› _ _ _
  have pair : OuterCorner δ u v w → cornerArc toInt j δ u v w = [joinFrom δ u v w, joinTo δ u v w] → ps = [] →
      toInt (v + outShift δ u v) :: ps ++ [toInt (v + outShift δ v w)] = (dirArc toInt j δ u v w).map toInt := by
    intro ho hc hps
    unfold dirArc
    rw [if_pos ho, hc, hps]
    unfold joinFrom joinTo
    by_cases hδ : 0 < δ
    · simp only [if_pos hδ]; rfl
    · simp only [if_neg hδ]; rfl
  cases j with
  | bevel =>
    have hps : ps = [] := h
    by_cases ho : OuterCorner δ u v w
    · exact pair ho (by rw [e1, e2]; rfl) hps
    · exact straight ho hps
  | round a =>
    simp only [LineJoin.normalize, LineJoin.oBuild, LineJoin.ratio] at h
    have hA1 : 0.01 * Real.pi ≤ clampR a (0.01 * Real.pi) (0.25 * Real.pi) := le_max_left _ _
    have hA2 : clampR a (0.01 * Real.pi) (0.25 * Real.pi) ≤ 0.25 * Real.pi := max_le (by nlinarith) (min_le_right _ _)
    rw [min_eq_left hA2] at h
    have hAdef : clampR a (0.01 * Real.pi) (0.25 * Real.pi) = clampR a (0.01 * Real.pi) (0.25 * Real.pi) := rfl
    generalize hA : clampR a (0.01 * Real.pi) (0.25 * Real.pi) = A at h hA1 hA2
    have hA0 : 0 < A := by nlinarith
    unfold Join.OExtra at h
    dsimp only at h
    change (if (realOps toInt A).le (realOps toInt A).zero ((realOps toInt A).cross (unitTo u v) (unitTo v w)) = decide (0 ≤ -δ)
      then _ else _) at h
    by_cases ho : OuterCorner δ u v w
    swap
    · rw [if_pos ((turns_iff δ u v w).2 ho)] at h
      exact straight ho h
    rw [if_neg (fun hc => (turns_iff δ u v w).1 hc ho)] at h
    change (if (realOps toInt A).lt (Real.cos A) ((unitTo u v).re * (unitTo v w).re + (unitTo u v).im * (unitTo v w).im) = true
      then _ else ps = (realOps toInt A).arc ((realOps toInt A).arcRotator (decide (0 ≤ -δ))
        ((unitTo u v).re * (unitTo v w).re + (unitTo u v).im * (unitTo v w).im)) v
        ((realOps toInt A).fromXY (-(unitTo u v).im) (unitTo u v).re) (-δ) ((realOps toInt A).arcCount
        ((unitTo u v).re * (unitTo v w).re + (unitTo u v).im * (unitTo v w).im))) at h
    rw [← hcos] at h
    generalize hφ : bendAngle u v w = φ at *
    have hiff : Real.cos A < Real.cos φ ↔ φ < A := by
      constructor
      · intro hc
        by_contra hn
        exact absurd hc (not_lt.2 (Real.cos_le_cos_of_nonneg_of_le_pi hA0.le f1 (not_lt.1 hn)))
      · intro hc
        exact Real.cos_lt_cos_of_nonneg_of_le_pi f0 (by nlinarith) hc
    have hcond : (realOps toInt A).lt (Real.cos A) (Real.cos φ) = true ↔ φ < A := by
      rw [← hiff]; exact decide_eq_true_iff
    have harc : cornerArc toInt (.round a) δ u v w = if φ < A then [joinFrom δ u v w, joinTo δ u v w] else
        arcPoints v (joinFrom δ u v w - v) φ ⌊φ / A + 1 / 2⌋₊ := by
      rw [e1, e2]
      unfold cornerArc cornerShape
      dsimp only
      rw [hA, hφ]
    by_cases hs : φ < A
    · rw [if_pos (hcond.2 hs)] at h
      rw [if_pos hs] at harc
      exact pair ho harc h
    rw [if_neg (fun hc => hs (hcond.1 hc))] at h
    rw [if_neg hs] at harc
    have hx : 1 ≤ φ / A := by rw [le_div_iff₀ hA0]; linarith
    have hn1 : 1 ≤ ⌊φ / A + 1 / 2⌋₊ := Nat.le_floor (by push_cast; linarith)
    have e6 : ((realOps toInt A).arcCount (Real.cos φ)) = ⌊φ / A + 1 / 2⌋₊ := by
      show ⌊Real.arccos (Real.cos φ) / A + 1 / 2⌋₊ = _
      rw [Real.arccos_cos f0 f1]
    have e7 : (realOps toInt A).fromXY (-(unitTo u v).im) (unitTo u v).re = I * unitTo u v := by
      show (⟨-(unitTo u v).im, (unitTo u v).re⟩ : ℂ) = _
      apply Complex.ext <;> simp
    rw [e6, e7] at h
    have ht := outer_turn h1 h2 ho
    rw [hφ] at ht
    unfold dirArc
    rw [if_pos ho, harc]
    unfold joinFrom
    by_cases hδ : 0 < δ
    · simp only [if_pos hδ] at ht ⊢
      have e5 : (realOps toInt A).arcRotator (decide (0 ≤ -δ)) (Real.cos φ) =
          (Real.cos (φ / ⌊φ / A + 1 / 2⌋₊), Real.sin (φ / ⌊φ / A + 1 / 2⌋₊)) := by
        rw [decide_eq_false (by linarith : ¬ (0 : ℝ) ≤ -δ)]
        show (Real.cos (Real.arccos (Real.cos φ) / (⌊Real.arccos (Real.cos φ) / A + 1 / 2⌋₊ : ℝ)), _) = _
        rw [Real.arccos_cos f0 f1]
      rw [h, e5, add_sub_cancel_left]
      have key := arc_forward (toInt := toInt) (ratio := A) v (I * unitTo u v) (I * unitTo v w) (-δ) φ ⌊φ / A + 1 / 2⌋₊ hn1
        (by rw [ht]; ring)
      rw [oext_side, oext_side] at key
      rw [key]
      congr 2
      have := oext_side δ 0 u v
      simpa using this
    · simp only [if_neg hδ] at ht ⊢
      have e5 : (realOps toInt A).arcRotator (decide (0 ≤ -δ)) (Real.cos φ) =
          (Real.cos (-(φ / ⌊φ / A + 1 / 2⌋₊)), Real.sin (-(φ / ⌊φ / A + 1 / 2⌋₊))) := by
        rw [decide_eq_true (by linarith : (0 : ℝ) ≤ -δ)]
        show (Real.cos (-(Real.arccos (Real.cos φ) / (⌊Real.arccos (Real.cos φ) / A + 1 / 2⌋₊ : ℝ))), _) = _
        rw [Real.arccos_cos f0 f1]
      rw [h, e5, add_sub_cancel_left]
      have key := arc_closed (toInt := toInt) (ratio := A) v (I * unitTo v w) (I * unitTo u v) (-δ) φ ⌊φ / A + 1 / 2⌋₊ hn1
        (by linear_combination (-I) * ht)
      rw [oext_side, oext_side] at key
      have ep : I * unitTo v w * ((-δ : ℝ) : ℂ) = outShift δ v w := by
        have := oext_side δ 0 v w
        simpa using this
      rw [ep] at key
      rw [List.map_reverse, ← key]
      simp
  | miter a =>
    simp only [LineJoin.normalize, LineJoin.oBuild, LineJoin.ratio] at h
    obtain ⟨p0, p1, p2⟩ := miter_angle a
    rw [p2] at h
    generalize hA : clampR a (0.01 * Real.pi) (0.99 * Real.pi) = A at h p0 p1 p2
    unfold Join.OExtra at h
    dsimp only at h
    change (if (realOps toInt 1).le (realOps toInt 1).zero ((realOps toInt 1).cross (unitTo u v) (unitTo v w)) = decide (0 ≤ -δ)
      then _ else _) at h
    by_cases ho : OuterCorner δ u v w
    swap
    · rw [if_pos ((turns_iff δ u v w).2 ho)] at h
      exact straight ho h
    rw [if_neg (fun hc => (turns_iff δ u v w).1 hc ho)] at h
    have s0 := osect_real (toInt := toInt) (ratio := 1) (-δ) h1
    have s1 := osect_real (toInt := toInt) (ratio := 1) (-δ) h2
    have eb : ((realOps toInt 1).oSection (-δ) u v).bTop = v + outShift δ u v := by
      rw [s0.bTop]; exact oext_side δ v u v
    have ea : ((realOps toInt 1).oSection (-δ) v w).aTop = v + outShift δ v w := by
      rw [s1.aTop]; exact oext_side δ v v w
    have ed0 : ((realOps toInt 1).oSection (-δ) u v).dir = unitTo u v := rfl
    have ed1 : ((realOps toInt 1).oSection (-δ) v w).dir = unitTo v w := rfl
    have eT : ∀ x, (realOps toInt 1).toInt x = toInt x := fun _ => rfl
    rw [eb, ea, ed0, ed1, eT, eT, ahead_real, behind_real, abs_neg] at h
    have hφr := hcos
    have hdot : (realOps toInt 1).lt ((realOps toInt 1).dot (unitTo u v) (unitTo v w)) (-Real.cos A) =
        decide (Real.pi - bendAngle u v w < A) := by
      show decide ((unitTo u v).re * (unitTo v w).re + (unitTo u v).im * (unitTo v w).im < -Real.cos A) = decide _
      congr 1
      rw [← hcos, ← Real.cos_pi_sub, eq_iff_iff]
      constructor
      · intro hc
        by_contra hn
        exact absurd hc (not_lt.2 (Real.cos_le_cos_of_nonneg_of_le_pi f0 (by linarith) (by linarith)))
      · intro hc
        exact Real.cos_lt_cos_of_nonneg_of_le_pi (by linarith) f1 (by linarith)
    rw [hdot] at h
    have harc : cornerArc toInt (.miter a) δ u v w =
        if sqrDist (toInt (v + outShift δ u v)) (toInt (v + outShift δ v w)) < 4 then [joinFrom δ u v w, joinTo δ u v w]
        else if Real.pi - bendAngle u v w < A then
          [joinFrom δ u v w, joinFrom δ u v w + (if 0 < δ then unitTo u v else -unitTo v w) * (|δ| / Real.tan (A / 2) : ℝ),
            joinTo δ u v w - (if 0 < δ then unitTo v w else -unitTo u v) * (|δ| / Real.tan (A / 2) : ℝ), joinTo δ u v w]
        else if toInt (joinFrom δ u v w + (if 0 < δ then unitTo u v else -unitTo v w) *
            (|δ| * Real.tan (bendAngle u v w / 2) : ℝ)) = toInt (v + outShift δ u v) ∨
            toInt (joinFrom δ u v w + (if 0 < δ then unitTo u v else -unitTo v w) *
            (|δ| * Real.tan (bendAngle u v w / 2) : ℝ)) = toInt (v + outShift δ v w) then [joinFrom δ u v w, joinTo δ u v w]
        else [joinFrom δ u v w, joinFrom δ u v w + (if 0 < δ then unitTo u v else -unitTo v w) *
            (|δ| * Real.tan (bendAngle u v w / 2) : ℝ), joinTo δ u v w] := by
      rw [e1, e2]
      unfold cornerArc cornerShape
      dsimp only
      rw [hA]
      split_ifs <;> rfl
    by_cases c1 : sqrDist (toInt (v + outShift δ u v)) (toInt (v + outShift δ v w)) < 4
    · rw [if_pos c1] at h harc
      exact pair ho harc h
    rw [if_neg c1] at h harc
    unfold FloatOps.miterPoints at h
    have cne : ¬ toInt (v + outShift δ u v) = toInt (v + outShift δ v w) := by
      intro hc
      apply c1
      rw [hc]
      simp [sqrDist]
    rw [eT, eT, eT, eT, eT, if_neg cne] at h
    have hhalf : 0.5 * A = A / 2 := by ring
    rw [hhalf] at h
    by_cases c2 : Real.pi - bendAngle u v w < A
    · rw [if_pos (decide_eq_true c2)] at h
      rw [if_pos c2] at harc
      unfold dirArc
      rw [if_pos ho, harc, h]
      unfold joinFrom joinTo
      by_cases hδ : 0 < δ
      · simp only [if_pos hδ]; rfl
      · simp only [if_neg hδ]
        simp only [List.reverse_cons, List.reverse_nil, List.nil_append, List.cons_append, List.map_cons, List.map_nil]
        congr 3
        · congr 1; ring
        · congr 1; ring
    rw [if_neg (by rw [decide_eq_true_eq]; exact c2)] at h
    rw [if_neg c2] at harc
    have hφ' : bendAngle u v w < Real.pi := by linarith
    have ht := outer_turn h1 h2 ho
    have hmeet := tip_meet (r := |δ|) v (if 0 < δ then unitTo u v else -unitTo v w) f0 hφ'
    rw [← ht, ← e1, ← e2] at hmeet
    have hne : unitTo u v + unitTo v w ≠ 0 := by
      intro hc
      have hd : unitTo v w = -unitTo u v := eq_neg_of_add_eq_zero_right hc
      have : Real.cos (bendAngle u v w) = -1 := by
        rw [hcos, hd]; simp only [Complex.neg_re, Complex.neg_im]; linarith
      have : bendAngle u v w = Real.pi := by
        rw [← Real.arccos_cos f0 f1, this, Real.arccos_neg_one]
      linarith
    obtain ⟨k, k1, k2, -⟩ := miterTip_real (toInt := toInt) (ratio := 1) (c := v) (ρ := -δ) u0 u1 hne
    rw [oext_side, oext_side] at k1 k2
    have htip : (realOps toInt 1).miterTip (v + outShift δ u v) (v + outShift δ v w) (unitTo u v) (unitTo v w) =
        joinFrom δ u v w + (if 0 < δ then unitTo u v else -unitTo v w) * (|δ| * Real.tan (bendAngle u v w / 2) : ℝ) := by
      rw [k1]
      by_cases hδ : 0 < δ
      · simp only [if_pos hδ] at ht ⊢
        have hk := tip_length (ρ := -δ) (k := k) u0 ht f0 hφ' (by
          rw [← oext_side, ← oext_side] at k2
          linear_combination k2)
        unfold joinFrom
        rw [if_pos hδ, hk, abs_of_pos hδ]
        push_cast; ring
      · simp only [if_neg hδ] at ht ⊢
        have hk := tip_length (a := unitTo v w) (b := unitTo u v) (ρ := -δ) (k := -k) u1 (by linear_combination -ht) f0 hφ' (by
          rw [← oext_side, ← oext_side] at k2
          push_cast at k2 ⊢
          linear_combination -k2)
        unfold joinFrom
        rw [if_neg hδ, k2, abs_of_nonpos (not_lt.1 hδ)]
        have hk' : k = -δ * Real.tan (bendAngle u v w / 2) := by linarith
        rw [hk']
        push_cast; ring
    rw [htip] at h
    generalize hX : joinFrom δ u v w + (if 0 < δ then unitTo u v else -unitTo v w) *
      (|δ| * Real.tan (bendAngle u v w / 2) : ℝ) = X at h harc
    by_cases c3 : toInt X = toInt (v + outShift δ u v) ∨ toInt X = toInt (v + outShift δ v w)
    · rw [if_pos (c3.imp Eq.symm Eq.symm)] at h
      rw [if_pos c3] at harc
      exact pair ho harc h
    · rw [if_neg (fun hc => c3 (hc.imp Eq.symm Eq.symm))] at h
      rw [if_neg c3] at harc
      unfold dirArc
      rw [if_pos ho, harc, h]
      unfold joinFrom joinTo
      by_cases hδ : 0 < δ
      · simp only [if_pos hδ]; rfl
      · simp only [if_neg hδ]; rfl

/-! ### the drawn sides -/

/-- The sides along the given points, without the first and the last. -/
noncomputable def ringSides (toInt : ℂ → Pt) (j : LineJoin) (δ : ℝ) : List ℂ → List (ℂ × ℂ)
  | _ :: u :: v :: w :: l => (u + outShift δ u v, v + outShift δ u v) :: pairsOf (dirArc toInt j δ u v w) ++
      ringSides toInt j δ (u :: v :: w :: l)
  | _ => []

section
variable (j : LineJoin) {δ : ℝ}

theorem drawn_oSection {u v : ℂ} (h : u ≠ v) : DrawnSides toInt [(u + outShift δ u v, v + outShift δ u v)]
    ((realOps toInt ratio).oAddSection ((realOps toInt ratio).oSection (-δ) u v)) := by
  have hs := osect_real (toInt := toInt) (ratio := ratio) (-δ) h
  have hw := oAddSection_way (realOps toInt ratio) ((realOps toInt ratio).oSection (-δ) u v)
  refine hw.drawn (c := [u + outShift δ u v, v + outShift δ u v]) ?_
  rw [hs.aTop, hs.bTop]
  show [toInt (u + I * unitTo u v * ((-δ : ℝ) : ℂ)), toInt (v + I * unitTo u v * ((-δ : ℝ) : ℂ))] = _
  rw [oext_side, oext_side]; rfl

theorem drawn_oJoin {u v w : ℂ} (h1 : u ≠ v) (h2 : v ≠ w) :
    let o := realOps toInt j.normalize.ratio
    DrawnSides toInt (pairsOf (dirArc toInt j δ u v w))
      (o.oAddJoin (j.normalize.oBuild (-δ)) (o.oSection (-δ) u v) (o.oSection (-δ) v w)) := by
  intro o
  obtain ⟨ps, hx, hw⟩ := oAddJoin_way o (j.normalize.oBuild (-δ)) (o.oSection (-δ) u v) (o.oSection (-δ) v w)
  refine hw.drawn ?_
  rw [← extra_dirArc j h1 h2 hx]
  have s0 := osect_real (toInt := toInt) (ratio := j.normalize.ratio) (-δ) h1
  have s1 := osect_real (toInt := toInt) (ratio := j.normalize.ratio) (-δ) h2
  rw [s0.bTop, s1.aTop]
  show toInt (v + I * unitTo u v * ((-δ : ℝ) : ℂ)) :: ps ++ [toInt (v + I * unitTo v w * ((-δ : ℝ) : ℂ))] = _
  rw [oext_side, oext_side]

theorem oLoop_drawn {p0 : ℂ} : ∀ (l : List ℂ) (t u v : ℂ) (last : ℂ), (v :: l).getLast (by simp) = last → toInt u ≠ toInt v →
    (v :: l).IsChain (fun a b => toInt a ≠ toInt b) → toInt last ≠ toInt p0 →
    let o := realOps toInt j.normalize.ratio
    let r := o.oLoop (-δ) (j.normalize.oBuild (-δ)) (o.oSection (-δ) u v) (toInt v) l
    DrawnSides toInt (ringSides toInt j δ (t :: u :: v :: (l ++ [p0])))
      (o.oAddSection (o.oSection (-δ) u v) ++ r.1 ++ o.oAddJoin (j.normalize.oBuild (-δ)) r.2 (o.oSection (-δ) last p0)) := by
  intro l
  induction l with
  | nil =>
    intro t u v last hlast h _ hp o r
    have hv : v = last := hlast
    subst hv
    have n1 : u ≠ v := fun e => h (congrArg toInt e)
    have n2 : v ≠ p0 := fun e => hp (congrArg toInt e)
    have := (drawn_oSection (ratio := j.normalize.ratio) (δ := δ) (toInt := toInt) n1).append (drawn_oJoin (toInt := toInt) (δ := δ) j n1 n2)
    show DrawnSides toInt (ringSides toInt j δ [t, u, v, p0]) (o.oAddSection (o.oSection (-δ) u v) ++ [] ++ _)
    rw [List.append_nil, ringSides, show ringSides toInt j δ [u, v, p0] = [] from rfl, List.append_nil]
    exact this
  | cons w l ih =>
    intro t u v last hlast h hc hp o r
    rw [List.isChain_cons_cons] at hc
    have n1 : u ≠ v := fun e => h (congrArg toInt e)
    have n2 : v ≠ w := fun e => hc.1 (congrArg toInt e)
    have IH := ih u v w last ((List.getLast_cons (List.cons_ne_nil w l)).symm.trans hlast) hc.1 hc.2 hp
    have hr : r = (o.oAddJoin (j.normalize.oBuild (-δ)) (o.oSection (-δ) u v) (o.oSection (-δ) v w) ++
        o.oAddSection (o.oSection (-δ) v w) ++ (o.oLoop (-δ) (j.normalize.oBuild (-δ)) (o.oSection (-δ) v w) (toInt w) l).1,
        (o.oLoop (-δ) (j.normalize.oBuild (-δ)) (o.oSection (-δ) v w) (toInt w) l).2) := by
      show o.oLoop _ _ _ _ (w :: l) = _
      rw [FloatOps.oLoop, if_neg (by exact fun e => hc.1 e.symm)]
      rfl
    rw [hr]
    have := ((drawn_oSection (ratio := j.normalize.ratio) (δ := δ) (toInt := toInt) n1).append
      (drawn_oJoin (toInt := toInt) (δ := δ) j n1 n2)).append IH
    rw [List.cons_append, ringSides]
    refine Eq.subst (motive := fun x => DrawnSides toInt _ x) ?_ this
    simp only [List.append_assoc]
    rfl

theorem ringOf_eq {p0 p1 a last : ℂ} {l : List ℂ} (hab : [a, last] <:+ p0 :: p1 :: l) :
    ringOf (p0 :: p1 :: l) = a :: last :: p0 :: p1 :: (l ++ [p0]) := by
  obtain ⟨t, ht⟩ := hab
  unfold ringOf
  have hlen : (p0 :: p1 :: l).length - 2 = t.length := by rw [← ht]; simp
  rw [hlen]
  have : (p0 :: p1 :: l).drop t.length = [a, last] := by rw [← ht]; simp
  rw [this]
  simp

theorem drawn_outline {p0 p1 a last : ℂ} {l : List ℂ} (hab : [a, last] <:+ p0 :: p1 :: l)
    (hA : RingApart toInt (p0 :: p1 :: l)) :
    DrawnSides toInt (ringSides toInt j δ (ringOf (p0 :: p1 :: l)))
      ((realOps toInt j.normalize.ratio).outlineSegments (-δ) (j.normalize.oBuild (-δ)) (p0 :: p1 :: l)) := by
  have hlast : (p1 :: l).getLast (by simp) = last := by
    have h2 := hab.getLast (by simp)
    rw [List.getLast_cons (by simp)] at h2
    simpa using h2.symm
  have hring := ringOf_eq hab
  have hch : (last :: p0 :: p1 :: l).IsChain (fun a b => toInt a ≠ toInt b) :=
    chain_of_pairs fun x y h => hA x y (h.trans (by rw [hring]; exact ⟨[a], [p0], by simp⟩))
  rw [List.isChain_cons_cons] at hch
  have key := oLoop_drawn (toInt := toInt) (δ := δ) j (p0 := p0) (p1 :: l) a last p0 last
    (by rw [List.getLast_cons (by simp)]; exact hlast) hch.1 hch.2 hch.1
  have hskip : (realOps toInt j.normalize.ratio).skipEqual ((realOps toInt j.normalize.ratio).toInt last) (p0 :: p1 :: l) =
      p0 :: p1 :: l := by
    rw [FloatOps.skipEqual, if_neg (by exact fun e => hch.1 e.symm)]
  unfold FloatOps.outlineSegments
  dsimp only
  rw [hlast, hskip]
  rw [hring]
  exact key

end

end IOverlay
