/-
The winding numbers of the sides of an outline: those of the path and of the parts (proofs for C77).
-/
import Verif.OutlineDraw

namespace IOverlay
open Complex

/-- Quantities of edges that change sign with the direction, and add up along a line. -/
structure LineSum (g : ℂ → ℂ → Int) : Prop where
  anti : ∀ a b, g b a = - g a b
  line : ∀ a b c, areaC a b c = 0 → g a c = g a b + g b c

theorem lineSum_wind (z : ℂ) : LineSum fun a b => edgeWindC a b z :=
  ⟨fun a b => edgeWindC_swap a b z, fun _ _ _ h => edgeWindC_line h z⟩

theorem lineSum_pot (f : ℂ → Int) : LineSum fun a b => f b - f a := ⟨fun a b => by ring, fun a b c _ => by ring⟩

/-- `1` outwards, `-1` inwards. -/
noncomputable def sideSign (δ : ℝ) : Int := if 0 < δ then 1 else -1

theorem chainSum_reverse {g : ℂ → ℂ → Int} (hg : LineSum g) : ∀ l : List ℂ, chainSum g l.reverse = - chainSum g l := by
  intro l
  induction l with
  | nil => rfl
  | cons a l ih =>
    cases l with
    | nil => rfl
    | cons b l =>
      rw [List.reverse_cons, List.reverse_cons, List.append_assoc]
      rw [List.reverse_cons] at ih
      have := chainSum_snoc g l.reverse b a
      rw [show [b] ++ [a] = [b, a] from rfl, this, ih, chainSum, hg.anti a b]
      ring

theorem LineSum.self {g : ℂ → ℂ → Int} (hg : LineSum g) (a : ℂ) : g a a = 0 := by
  have := hg.anti a a
  omega

section
variable {g : ℂ → ℂ → Int} {toInt : ℂ → Pt} (j : LineJoin) {δ : ℝ}

/-- Where the band of the edge `u v` begins. -/
noncomputable def bandStart (δ : ℝ) (t u v : ℂ) : ℂ := u + outShift δ u v + unitTo u v * (cutOff δ t u v : ℝ)

/-- Where the band of the edge `u v` ends. -/
noncomputable def bandEnd (δ : ℝ) (u v w : ℂ) : ℂ := v + outShift δ u v - unitTo u v * (cutOff δ u v w : ℝ)

/-- What the shifted edge has before the band. -/
noncomputable def startRem (g : ℂ → ℂ → Int) (δ : ℝ) (t u v : ℂ) : Int :=
  g (u + outShift δ u v) (bandStart δ t u v) + g (bandStart δ t u v) u

noncomputable def endRem (g : ℂ → ℂ → Int) (δ : ℝ) (u v w : ℂ) : Int :=
  g v (bandEnd δ u v w) + g (bandEnd δ u v w) (v + outShift δ u v)

open Classical in
/-- The contribution of a corner. -/
noncomputable def cornerVal (toInt : ℂ → Pt) (j : LineJoin) (g : ℂ → ℂ → Int) (δ : ℝ) (u v w : ℂ) : Int :=
  if OuterCorner δ u v w then cycSum g (v :: cornerArc toInt j δ u v w) else cycSum g (overshoot δ u v w)

theorem areaC_dir (p d : ℂ) (x y : ℝ) : areaC p (p + d * x) (p + d * y) = 0 := by
  unfold areaC
  simp only [add_re, add_im, mul_re, mul_im, ofReal_re, ofReal_im]
  ring

theorem edge_sum (hg : LineSum g) {t u v w : ℂ} (h : u ≠ v) :
    g (u + outShift δ u v) (v + outShift δ u v) =
      startRem g δ t u v + sideSign δ * cycSum g (edgeBand δ t u v w) + g u v + endRem g δ u v w := by
  have hv := unitTo_reach h
  have l1 := hg.line (u + outShift δ u v) (bandStart δ t u v) (v + outShift δ u v) (by
    have := areaC_dir (u + outShift δ u v) (unitTo u v) (cutOff δ t u v) ‖v - u‖
    rw [← hv] at this
    unfold bandStart
    rw [← this]
    congr 1; ring)
  have l2 := hg.line (bandStart δ t u v) (bandEnd δ u v w) (v + outShift δ u v) (by
    have := areaC_dir (bandStart δ t u v) (unitTo u v) (‖v - u‖ - cutOff δ t u v - cutOff δ u v w) (‖v - u‖ - cutOff δ t u v)
    have e1 : bandStart δ t u v + unitTo u v * ((‖v - u‖ - cutOff δ t u v - cutOff δ u v w : ℝ) : ℂ) = bandEnd δ u v w := by
      unfold bandStart bandEnd; push_cast; linear_combination -hv
    have e2 : bandStart δ t u v + unitTo u v * ((‖v - u‖ - cutOff δ t u v : ℝ) : ℂ) = v + outShift δ u v := by
      unfold bandStart; push_cast; linear_combination -hv
    rwa [e1, e2] at this)
  have hb : sideSign δ * cycSum g (edgeBand δ t u v w) = g (bandStart δ t u v) (bandEnd δ u v w) + g (bandEnd δ u v w) v +
      g v u + g u (bandStart δ t u v) := by
    unfold sideSign edgeBand
    dsimp only
    by_cases hδ : 0 < δ
    · rw [if_pos hδ, if_pos hδ, cycSum_cons]
      simp only [List.cons_append, List.nil_append, chainSum]
      unfold bandStart bandEnd
      ring
    · rw [if_neg hδ, if_neg hδ, cycSum_cons]
      simp only [List.cons_append, List.nil_append, chainSum]
      have a1 := hg.anti u v
      have a2 := hg.anti v (bandEnd δ u v w)
      have a3 := hg.anti (bandStart δ t u v) (bandEnd δ u v w)
      have a4 := hg.anti u (bandStart δ t u v)
      unfold bandStart bandEnd at *
      omega
  rw [l1, l2, hb]
  unfold startRem endRem
  have a1 := hg.anti u v
  have a2 := hg.anti v (bandEnd δ u v w)
  have a4 := hg.anti u (bandStart δ t u v)
  omega

theorem corner_total (hg : LineSum g) {u v w : ℂ} (h1 : u ≠ v) (h2 : v ≠ w) (hf : ¬ OuterCorner δ u v w → bendAngle u v w < Real.pi) :
    endRem g δ u v w + chainSum g (dirArc toInt j δ u v w) + startRem g δ u v w = sideSign δ * cornerVal toInt j g δ u v w := by
  unfold endRem startRem dirArc cornerVal
  by_cases ho : OuterCorner δ u v w
  · have e1 : bandEnd δ u v w = v + outShift δ u v := by unfold bandEnd cutOff; rw [if_pos ho]; push_cast; ring
    have e2 : bandStart δ u v w = v + outShift δ v w := by unfold bandStart cutOff; rw [if_pos ho]; push_cast; ring
    rw [if_pos ho, if_pos ho, e1, e2, hg.self, hg.self]
    obtain ⟨m, hm⟩ := (cornerArc_around (toInt := toInt) j h1 h2 ho).ends
    have hcyc : cycSum g (v :: cornerArc toInt j δ u v w) =
        g v (joinFrom δ u v w) + chainSum g (cornerArc toInt j δ u v w) + g (joinTo δ u v w) v := by
      rw [hm, cycSum_cons]
      have := chainSum_snoc g (v :: joinFrom δ u v w :: m) (joinTo δ u v w) v
      have e : v :: (joinFrom δ u v w :: m ++ [joinTo δ u v w]) ++ [v] = v :: joinFrom δ u v w :: m ++ [joinTo δ u v w, v] := by simp
      rw [e, this]
      simp only [List.cons_append, chainSum]
    rw [hcyc]
    unfold sideSign joinFrom joinTo
    by_cases hδ : 0 < δ
    · simp only [if_pos hδ]; ring
    · simp only [if_neg hδ]
      rw [chainSum_reverse hg, hg.anti v (v + outShift δ u v), hg.anti v (v + outShift δ v w)]
      ring
  · have e1 : bandEnd δ u v w = innerTip δ u v w := by unfold bandEnd cutOff innerTip; rw [if_neg ho]
    have e2 : bandStart δ u v w = innerTip δ u v w := by
      rw [innerTip_eq h1 h2 ho (hf ho)]; unfold bandStart cutOff; rw [if_neg ho]
    rw [if_neg ho, if_neg ho, e1, e2]
    unfold overshoot sideSign
    have a1 := hg.anti v (innerTip δ u v w)
    have a2 := hg.anti (innerTip δ u v w) (v + outShift δ u v)
    have a3 := hg.anti (v + outShift δ v w) (innerTip δ u v w)
    have a4 := hg.anti (v + outShift δ u v) (v + outShift δ v w)
    by_cases hδ : 0 < δ
    · simp only [if_pos hδ]
      rw [cycSum_cons]
      simp only [List.cons_append, List.nil_append, chainSum]
      omega
    · simp only [if_neg hδ]
      rw [cycSum_cons]
      simp only [List.cons_append, List.nil_append, chainSum]
      omega

/-- The contribution of the bands and corners along the given points. -/
noncomputable def ringVal (toInt : ℂ → Pt) (j : LineJoin) (g : ℂ → ℂ → Int) (δ : ℝ) : List ℂ → Int
  | t :: u :: v :: w :: l => cycSum g (edgeBand δ t u v w) + cornerVal toInt j g δ u v w + ringVal toInt j g δ (u :: v :: w :: l)
  | _ => 0

/-- The edges between the given points, without the first and the last. -/
def ringLines (g : ℂ → ℂ → Int) : List ℂ → Int
  | _ :: u :: v :: w :: l => g u v + ringLines g (u :: v :: w :: l)
  | _ => 0

theorem ring_sum (hg : LineSum g) : ∀ (l : List ℂ) (t u v : ℂ) {x y z : ℂ}, [x, y, z] <:+ t :: u :: v :: l →
    (∀ u' v', [u', v'] <:+: t :: u :: v :: l → u' ≠ v') →
    (∀ u' v' w', [u', v', w'] <:+: t :: u :: v :: l → ¬ OuterCorner δ u' v' w' → bendAngle u' v' w' < Real.pi) →
    ((ringSides toInt j δ (t :: u :: v :: l)).map fun d => g d.1 d.2).sum =
      startRem g δ t u v - startRem g δ x y z + ringLines g (t :: u :: v :: l) +
      sideSign δ * ringVal toInt j g δ (t :: u :: v :: l) := by
  intro l
  induction l with
  | nil =>
    intro t u v x y z hs _ _
    have := hs.eq_of_length rfl
    simp only [List.cons.injEq, and_true] at this
    obtain ⟨rfl, rfl, rfl⟩ := this
    rw [show ringSides toInt j δ [x, y, z] = [] from rfl, show ringLines g [x, y, z] = 0 from rfl,
      show ringVal toInt j g δ [x, y, z] = 0 from rfl]
    simp
  | cons w l ih =>
    intro t u v x y z hs hne hf
    have tail : u :: v :: w :: l <:+: t :: u :: v :: w :: l := (List.suffix_cons _ _).isInfix
    have hs' : [x, y, z] <:+ u :: v :: w :: l := by
      rcases List.suffix_cons_iff.1 hs with h | h
      · have := congrArg List.length h; simp at this
      · exact h
    have IH := ih u v w hs' (fun a b h => hne a b (h.trans tail)) (fun a b c h => hf a b c (h.trans tail))
    have n1 := hne u v ⟨[t], w :: l, rfl⟩
    have n2 := hne v w ⟨[t, u], l, rfl⟩
    have c := corner_total (toInt := toInt) j hg n1 n2 (hf u v w ⟨[t], l, rfl⟩)
    have e := edge_sum (δ := δ) (t := t) (w := w) hg n1
    rw [ringSides, ringLines, ringVal, List.map_append, List.sum_append, List.map_cons, List.sum_cons, pairsOf_sum, IH]
    dsimp only
    rw [e]
    linear_combination c

theorem ringVal_pot (f : ℂ → Int) : ∀ (l : List ℂ), ringVal toInt j (fun a b => f b - f a) δ l = 0 := by
  intro l
  induction l with
  | nil => rfl
  | cons t l ih =>
    match l, ih with
    | [], _ => rfl
    | [_], _ => rfl
    | [_, _], _ => rfl
    | u :: v :: w :: l, ih =>
      rw [ringVal, ih, cycSum_pot]
      unfold cornerVal
      split <;> rw [cycSum_pot] <;> rfl

theorem ringLines_chain (g : ℂ → ℂ → Int) : ∀ (l : List ℂ) (t u v e : ℂ),
    ringLines g (t :: u :: v :: (l ++ [e])) = chainSum g (u :: v :: l) := by
  intro l
  induction l with
  | nil => intro t u v e; rfl
  | cons w l ih =>
    intro t u v e
    rw [List.cons_append, ringLines, ih u v w e]
    rfl

theorem ringLines_ring (g : ℂ → ℂ → Int) {p0 p1 a last : ℂ} {l : List ℂ} (hab : [a, last] <:+ p0 :: p1 :: l) :
    ringLines g (ringOf (p0 :: p1 :: l)) = cycSum g (p0 :: p1 :: l) := by
  rw [ringOf_eq hab]
  have := ringLines_chain g (p1 :: l) a last p0 p0
  rw [List.cons_append] at this
  rw [this]
  obtain ⟨t, ht⟩ := hab
  have e : p0 :: p1 :: l ++ [p0] = (t ++ [a]) ++ [last, p0] := by
    rw [← ht]; simp
  have e2 : t ++ [a] ++ [last] = p0 :: p1 :: l := by rw [← ht]; simp
  rw [cycSum_cons, e, chainSum_snoc, e2]
  rw [show chainSum g (last :: p0 :: p1 :: l) = g last p0 + chainSum g (p0 :: p1 :: l) from rfl]
  ring

theorem ring_total (hg : LineSum g) {p0 p1 a last : ℂ} {l : List ℂ} (hab : [a, last] <:+ p0 :: p1 :: l)
    (hA : RingApart toInt (p0 :: p1 :: l)) (hR : RoomFor δ (p0 :: p1 :: l)) :
    ((ringSides toInt j δ (ringOf (p0 :: p1 :: l))).map fun d => g d.1 d.2).sum =
      cycSum g (p0 :: p1 :: l) + sideSign δ * ringVal toInt j g δ (ringOf (p0 :: p1 :: l)) := by
  have hring := ringOf_eq hab
  have hs : [a, last, p0] <:+ ringOf (p0 :: p1 :: l) := by
    obtain ⟨t, ht⟩ := hab
    rw [hring]
    have : p0 :: p1 :: (l ++ [p0]) = t ++ [a, last] ++ [p0] := by rw [ht]; simp
    rw [this]
    exact ⟨a :: last :: t, by simp⟩
  rw [← ringLines_ring g hab]
  rw [hring] at hs ⊢
  have := ring_sum (toInt := toInt) (δ := δ) j hg (p1 :: (l ++ [p0])) a last p0 hs
    (fun x y h e => hA x y (by rw [hring]; exact h) (congrArg toInt e))
    (fun x y z h => hR.unfolded x y z (by rw [hring]; exact h))
  rw [this]
  ring

end

/-! ### windings -/

section
variable {toInt : ℂ → Pt} {j : LineJoin} {δ : ℝ} {path : List ℂ}

/-- All parts wind nonnegatively. -/
theorem part_nonneg (hA : RingApart toInt path) (hR : RoomFor δ path) {P : List ℂ} (h : OutlinePart toInt j δ path P) (z : ℂ) :
    0 ≤ polyWindC P z := by
  have ne : ∀ u v, [u, v] <:+: ringOf path → u ≠ v := fun u v h e => hA u v h (congrArg toInt e)
  cases h with
  | @band t u v w h =>
    have n1 := ne u v (List.IsInfix.trans ⟨[t], [w], rfl⟩ h)
    exact band_nonneg n1 (cutOff_nonneg _ _ _ (hR.unfolded t u v (List.IsInfix.trans ⟨[], [w], rfl⟩ h)))
      (cutOff_nonneg _ _ _ (hR.unfolded u v w (List.IsInfix.trans ⟨[t], [], rfl⟩ h))) (hR.long t u v w h) z
  | @join u v w h ho =>
    exact join_wind_nonneg j (ne u v (List.IsInfix.trans ⟨[], [w], rfl⟩ h)) (ne v w (List.IsInfix.trans ⟨[u], [], rfl⟩ h)) ho z
  | @over u v w h ho =>
    exact over_nonneg (ne u v (List.IsInfix.trans ⟨[], [w], rfl⟩ h)) (ne v w (List.IsInfix.trans ⟨[u], [], rfl⟩ h)) ho
      (hR.unfolded u v w h ho) z

/-- The part of a corner. -/
theorem corner_part {u v w : ℂ} (h : [u, v, w] <:+: ringOf path) (z : ℂ) : ∃ P, OutlinePart toInt j δ path P ∧
    cornerVal toInt j (fun a b => edgeWindC a b z) δ u v w = polyWindC P z := by
  unfold cornerVal
  by_cases ho : OuterCorner δ u v w
  · exact ⟨_, .join h ho, by rw [if_pos ho]; rfl⟩
  · exact ⟨_, .over h ho, by rw [if_neg ho]; rfl⟩

theorem ringVal_nonneg (hA : RingApart toInt path) (hR : RoomFor δ path) (z : ℂ) : ∀ (l : List ℂ), l <:+: ringOf path →
    0 ≤ ringVal toInt j (fun a b => edgeWindC a b z) δ l ∧
    (ringVal toInt j (fun a b => edgeWindC a b z) δ l = 0 →
      (∀ t u v w, [t, u, v, w] <:+: l → polyWindC (edgeBand δ t u v w) z = 0 ∧
        cornerVal toInt j (fun a b => edgeWindC a b z) δ u v w = 0)) ∧
    ((∀ P, OutlinePart toInt j δ path P → polyWindC P z = 0) → ringVal toInt j (fun a b => edgeWindC a b z) δ l = 0) := by
  have short : ∀ l : List ℂ, l.length ≤ 3 → ∀ t u v w, [t, u, v, w] <:+: l → False := by
    intro l hl t u v w h
    have := h.length_le
    simp at this
    omega
  intro l
  induction l with
  | nil => intro _; exact ⟨le_refl _, fun _ t u v w h => (short _ (by simp) t u v w h).elim, fun _ => rfl⟩
  | cons t l ih =>
    intro hl
    match l, ih, hl with
    | [], _, _ => exact ⟨le_refl _, fun _ t u v w h => (short _ (by simp) t u v w h).elim, fun _ => rfl⟩
    | [_], _, _ => exact ⟨le_refl _, fun _ t u v w h => (short _ (by simp) t u v w h).elim, fun _ => rfl⟩
    | [_, _], _, _ => exact ⟨le_refl _, fun _ t u v w h => (short _ (by simp) t u v w h).elim, fun _ => rfl⟩
    | u :: v :: w :: l, ih, hl =>
      obtain ⟨i1, i2, i3⟩ := ih ((List.suffix_cons _ _).isInfix.trans hl)
      have h4 : [t, u, v, w] <:+: ringOf path := List.IsInfix.trans ⟨[], l, rfl⟩ hl
      have h3 : [u, v, w] <:+: ringOf path := List.IsInfix.trans ⟨[t], [], rfl⟩ h4
      obtain ⟨P, hP, eP⟩ := corner_part (toInt := toInt) (j := j) (δ := δ) h3 z
      have b1 := part_nonneg hA hR (.band h4 : OutlinePart toInt j δ path _) z
      have b2 := part_nonneg hA hR hP z
      rw [← eP] at b2
      rw [ringVal, ← polyWindC_eq]
      refine ⟨by omega, fun hz => ?_, fun hz => ?_⟩
      · intro t' u' v' w' h'
        rcases List.infix_cons_iff.1 h' with h' | h'
        · rw [List.cons_prefix_cons, List.cons_prefix_cons, List.cons_prefix_cons, List.cons_prefix_cons] at h'
          obtain ⟨rfl, rfl, rfl, rfl, -⟩ := h'
          exact ⟨by omega, by omega⟩
        · exact i2 (by omega) t' u' v' w' h'
      · rw [i3 hz, eP, hz _ hP, hz _ (.band h4)]
        rfl

/-- Every corner of the path is the end of a window of four points. -/
theorem ring_window {p0 p1 a last : ℂ} {l : List ℂ} (hab : [a, last] <:+ p0 :: p1 :: l) {u v w : ℂ}
    (h : [u, v, w] <:+: ringOf (p0 :: p1 :: l)) : ∃ t, [t, u, v, w] <:+: ringOf (p0 :: p1 :: l) := by
  have hring := ringOf_eq hab
  rw [hring] at h ⊢
  rcases List.infix_cons_iff.1 h with h | h
  · -- the first corner is also the last
    rw [List.cons_prefix_cons, List.cons_prefix_cons, List.cons_prefix_cons] at h
    obtain ⟨rfl, rfl, rfl, -⟩ := h
    obtain ⟨s, hs⟩ := hab
    have e : w :: p1 :: (l ++ [w]) = s ++ [u, v, w] := by
      rw [← List.cons_append, ← List.cons_append, ← hs]; simp
    rw [e]
    rcases List.eq_nil_or_concat' s with rfl | ⟨s, x, rfl⟩
    · exact ⟨v, [u], [], by simp⟩
    · exact ⟨x, u :: v :: s, [], by simp⟩
  · obtain ⟨s, r, hs⟩ := h
    rcases List.eq_nil_or_concat' s with rfl | ⟨s, x, rfl⟩
    · refine ⟨a, [], r, ?_⟩
      rw [← hs]; simp
    · refine ⟨x, a :: s, r, ?_⟩
      rw [← hs]; simp

/-- The parts together: not zero exactly where some part is not. -/
theorem ring_covers {p0 p1 a last : ℂ} {l : List ℂ} (hab : [a, last] <:+ p0 :: p1 :: l)
    (hA : RingApart toInt (p0 :: p1 :: l)) (hR : RoomFor δ (p0 :: p1 :: l)) (z : ℂ) :
    0 ≤ ringVal toInt j (fun a b => edgeWindC a b z) δ (ringOf (p0 :: p1 :: l)) ∧
    (ringVal toInt j (fun a b => edgeWindC a b z) δ (ringOf (p0 :: p1 :: l)) ≠ 0 ↔
      ∃ P, OutlinePart toInt j δ (p0 :: p1 :: l) P ∧ polyWindC P z ≠ 0) := by
  obtain ⟨i1, i2, i3⟩ := ringVal_nonneg (j := j) hA hR z _ List.infix_rfl
  refine ⟨i1, fun hne => ?_, ?_⟩
  · by_contra hno
    apply hne
    apply i3
    intro P hP
    by_contra hP'
    exact hno ⟨P, hP, hP'⟩
  · rintro ⟨P, hP, hz⟩ h0
    have all := i2 h0
    apply hz
    cases hP with
    | band h => exact (all _ _ _ _ h).1
    | join h ho =>
      obtain ⟨t, ht⟩ := ring_window hab h
      have := (all _ _ _ _ ht).2
      unfold cornerVal at this
      rw [if_pos ho] at this
      exact this
    | over h ho =>
      obtain ⟨t, ht⟩ := ring_window hab h
      have := (all _ _ _ _ ht).2
      unfold cornerVal at this
      rw [if_neg ho] at this
      exact this

end

end IOverlay
