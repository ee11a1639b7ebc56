/-
The shifted contours of outlines in exact arithmetic stay near the path and wind around far points as the path does.
-/
import Verif.OutlineStyle
import Verif.StrokeRun
import Verif.Props.OutlineMany

namespace IOverlay
open Complex

variable {toInt : ℂ → Pt} {ratio : ℝ}

/-! ### sections -/

/-- A section in exact arithmetic, from `a`. -/
structure OSect (ρ : ℝ) (a : ℂ) (s : OSection ℂ) : Prop where
  unit : s.dir.re * s.dir.re + s.dir.im * s.dir.im = 1
  aTop : s.aTop = a + I * s.dir * ρ
  bTop : s.bTop = s.b + I * s.dir * ρ

theorem osect_real (ρ : ℝ) {a b : ℂ} (h : a ≠ b) : OSect ρ a ((realOps toInt ratio).oSection ρ a b) := by
  have h' := sect_real (toInt := toInt) (ratio := ratio) ρ h
  exact ⟨h'.unit, h'.aTop, h'.bTop⟩

theorem norm_side_abs {d : ℂ} (h : d.re * d.re + d.im * d.im = 1) (ρ : ℝ) : ‖I * d * ρ‖ = |ρ| := by
  rw [norm_mul, norm_mul, unit_norm h, Complex.norm_I, Complex.norm_real, Real.norm_eq_abs]; ring

theorem OSect.side {ρ : ℝ} {a : ℂ} {s : OSection ℂ} (h : OSect ρ a s) : ‖s.aTop - a‖ = |ρ| ∧ ‖s.bTop - s.b‖ = |ρ| := by
  rw [h.aTop, h.bTop, add_sub_cancel_left, add_sub_cancel_left]
  exact ⟨norm_side_abs h.unit ρ, norm_side_abs h.unit ρ⟩

/-! ### joins -/

theorem cos_half {A : ℝ} : 1 - Real.cos A = 2 * (Real.sin (A / 2) * Real.sin (A / 2)) := by
  have h1 := Real.cos_sq_add_sin_sq (A / 2)
  have h2 : Real.cos A = 2 * Real.cos (A / 2) ^ 2 - 1 := by rw [← Real.cos_two_mul]; congr 1; ring
  nlinarith

/-- The prolonged sides of a limited miter. -/
theorem miter_limited {A r : ℝ} (p0 : 0 < A) (p1 : A < Real.pi) (hr : 0 ≤ r) {c d : ℂ} (ρ k : ℝ)
    (hd : d.re * d.re + d.im * d.im = 1) (hρ : ρ * ρ = r * r)
    (hk : k * k = (r / Real.tan (0.5 * A)) * (r / Real.tan (0.5 * A))) :
    ‖c + I * d * ρ + d * k - c‖ ≤ r / Real.sin (A / 2) := by
  have hs : 0 < Real.sin (A / 2) := Real.sin_pos_of_pos_of_lt_pi (by linarith) (by linarith)
  have hcos : 0 < Real.cos (A / 2) := Real.cos_pos_of_mem_Ioo ⟨by linarith [Real.pi_pos], by linarith⟩
  refine miter_reach p0 p1 hr (m := k * k) ?_ ?_
  · rw [show c + I * d * ρ + d * k - c = I * d * ρ + d * k by ring, sq_norm_corner hd, hρ]
  · rw [hk, cos_half, show 0.5 * A = A / 2 by ring, Real.tan_eq_sin_div_cos]
    have h1 := Real.cos_sq_add_sin_sq (A / 2)
    have : (r * r + r / (Real.sin (A / 2) / Real.cos (A / 2)) * (r / (Real.sin (A / 2) / Real.cos (A / 2)))) *
        (2 * (Real.sin (A / 2) * Real.sin (A / 2))) =
        2 * (r * r) * (Real.cos (A / 2) ^ 2 + Real.sin (A / 2) ^ 2) := by field_simp; ring
    rw [this, h1, mul_one]

/-- The tip of a miter that is not limited. -/
theorem miter_sharp {A r : ℝ} (p0 : 0 < A) (p1 : A < Real.pi) (hr : 0 ≤ r) {c va vb : ℂ} (ρ : ℝ)
    (ha : va.re * va.re + va.im * va.im = 1) (hb : vb.re * vb.re + vb.im * vb.im = 1) (hρ : ρ * ρ = r * r)
    (hdot : - Real.cos A ≤ va.re * vb.re + va.im * vb.im) :
    ‖(realOps toInt ratio).miterTip (c + I * va * ρ) (c + I * vb * ρ) va vb - c‖ ≤ r / Real.sin (A / 2) := by
  have hs : 0 < Real.sin (A / 2) := Real.sin_pos_of_pos_of_lt_pi (by linarith) (by linarith)
  have e2 := cos_half (A := A)
  have hne : va + vb ≠ 0 := by
    intro e
    have h1 : vb.re = - va.re := by have := congrArg Complex.re e; simp at this; linarith
    have h2 : vb.im = - va.im := by have := congrArg Complex.im e; simp at this; linarith
    rw [h1, h2] at hdot
    nlinarith
  obtain ⟨k, k1, -, k3⟩ := miterTip_real (toInt := toInt) (ratio := ratio) (c := c) (ρ := ρ) ha hb hne
  rw [k1]
  refine miter_reach p0 p1 hr (m := k * k) ?_ ?_
  · rw [show c + I * va * ρ + va * k - c = I * va * ρ + va * k by ring, sq_norm_corner ha, hρ]
  · rw [hρ] at k3
    nlinarith [mul_self_nonneg r, mul_self_nonneg k]

theorem arc_around_abs (ρ : ℝ) (t : ℝ) (c : ℂ) {v : ℂ} (hv : ‖v‖ = 1) (n : Nat) :
    Around toInt |ρ| c ((realOps toInt ratio).arc (Real.cos t, Real.sin t) c v ρ n) := by
  intro p hp
  unfold FloatOps.arc at hp
  obtain ⟨i, -, rfl⟩ := List.mem_map.1 hp
  unfold FloatOps.arcPoint
  refine ⟨_, ?_, rfl⟩
  show ‖c + ((realOps toInt ratio).rotate (Real.cos t) (Real.sin t))^[i + 1] v * ρ - c‖ ≤ |ρ|
  rw [rotate_iter, add_sub_cancel_left, norm_mul, norm_mul, norm_pow, norm_polar, hv, Complex.norm_real,
    Real.norm_eq_abs]
  simp

/-- The extra points of a join lie within reach of the corner. -/
theorem oExtra_around {j : LineJoin} {ρ : ℝ} {a : ℂ} {s0 s1 : OSection ℂ} (h0 : OSect ρ a s0) (h1 : OSect ρ s0.b s1)
    {ps : List Pt} (h : (j.normalize.oBuild ρ).OExtra (realOps toInt ratio) s0 s1 ps) :
    Around toInt (j.reach |ρ|) s0.b ps := by
  have hlt : ∀ u v : ℝ, (realOps toInt ratio).lt u v = decide (u < v) := fun _ _ => rfl
  have hdot : ∀ u v : ℂ, (realOps toInt ratio).dot u v = u.re * v.re + u.im * v.im := fun _ _ => rfl
  cases j with
  | bevel => rw [show ps = [] from h]; exact .nil _ _
  | miter a =>
    simp only [LineJoin.reach]
    simp only [LineJoin.normalize, LineJoin.oBuild] at h
    obtain ⟨p0, p1, p2⟩ := miter_angle a
    rw [p2] at h
    generalize clampR a (0.01 * Real.pi) (0.99 * Real.pi) = A at *
    have hρ : ρ * ρ = |ρ| * |ρ| := (abs_mul_abs_self ρ).symm
    unfold Join.OExtra at h
    dsimp only at h
    split at h
    · rw [h]; exact .nil _ _
    · split at h
      · rw [h]; exact .nil _ _
      · rw [h]
        refine miterPoints_around ?_ ?_
        · intro _
          rw [behind_real, ahead_real, h1.aTop, h0.bTop]
          constructor
          · exact miter_limited p0 p1 (abs_nonneg ρ) ρ _ h0.unit hρ rfl
          · have := miter_limited p0 p1 (abs_nonneg ρ) (c := s0.b) ρ (-(|ρ| / Real.tan (0.5 * A))) h1.unit hρ (by ring)
            push_cast at this ⊢
            convert this using 2; ring
        · intro hl
          rw [hlt, hdot, decide_eq_false_iff_not, not_lt] at hl
          rw [h1.aTop, h0.bTop]
          exact miter_sharp p0 p1 (abs_nonneg ρ) ρ h0.unit h1.unit hρ hl
  | round a =>
    unfold LineJoin.reach
    simp only [LineJoin.normalize, LineJoin.oBuild, Join.OExtra] at h
    have u0 : ‖(realOps toInt ratio).fromXY ((realOps toInt ratio).neg ((realOps toInt ratio).y s0.dir))
        ((realOps toInt ratio).x s0.dir)‖ = 1 := by
      apply unit_norm
      show -s0.dir.im * -s0.dir.im + s0.dir.re * s0.dir.re = 1
      linarith [h0.unit]
    split at h
    · rw [h]; exact .nil _ _
    · split at h
      · rw [h]; exact .nil _ _
      · rw [h]
        have hrot : ∀ cw dp, ∃ t, (realOps toInt ratio).arcRotator cw dp = (Real.cos t, Real.sin t) := by
          intro cw dp
          cases cw
          · exact ⟨_, rfl⟩
          · exact ⟨_, rfl⟩
        obtain ⟨t, ht⟩ := hrot (decide (0 ≤ ρ)) ((realOps toInt ratio).dot s0.dir s1.dir)
        rw [ht]
        exact arc_around_abs ρ t _ u0 _

/-! ### chains -/

/-- The winding number of consecutive edges. -/
noncomputable def openWind (l : List Pt) (q : QPt) : Int := ((l.zip l.tail).map fun e => edgeWind e.1 e.2 q).sum

theorem openWind_one (p : Pt) (q : QPt) : openWind [p] q = 0 := by simp [openWind]

theorem openWind_cons (p p' : Pt) (l : List Pt) (q : QPt) :
    openWind (p :: p' :: l) q = edgeWind p p' q + openWind (p' :: l) q := by
  simp [openWind]

theorem openWind_append (l m : List Pt) (p : Pt) (q : QPt) :
    openWind (l ++ p :: m) q = openWind (l ++ [p]) q + openWind (p :: m) q := by
  induction l with
  | nil => simp [openWind_one]
  | cons a l ih =>
    cases l with
    | nil => simp only [List.cons_append, List.nil_append, openWind_cons, openWind_one]; ring
    | cons b l =>
      simp only [List.cons_append] at ih ⊢
      rw [openWind_cons, openWind_cons, ih]; ring

theorem polyWind_open (p : Pt) (l : List Pt) (q : QPt) : polyWind (p :: l) q = openWind (p :: l ++ [p]) q := by
  have key : ∀ (l : List Pt) (p z : Pt), ((p :: l).zip (l ++ [z])) = ((p :: l ++ [z]).zip (l ++ [z])) := by
    intro l
    induction l with
    | nil => intro p z; rfl
    | cons m l ih =>
      intro p z
      rw [List.cons_append, List.zip_cons_cons, ih m z]; rfl
  unfold polyWind openWind
  rw [show polyEdges (p :: l) = (p :: l).zip (l ++ [p]) from rfl, key]; rfl

/-- A closed contour, starting one point earlier. -/
theorem polyWind_last {l : List Pt} {z : Pt} (h : l.getLast? = some z) (q : QPt) : polyWind l q = openWind (z :: l) q := by
  cases l with
  | nil => cases h
  | cons p l =>
    obtain ⟨l', rfl⟩ | ⟨rfl, rfl⟩ : (∃ l', l = l' ++ [z]) ∨ (l = [] ∧ p = z) := by
      rcases List.eq_nil_or_concat' l with rfl | ⟨l', y, rfl⟩
      · right; simpa using h
      · left
        rw [← List.cons_append, List.getLast?_append] at h
        simp at h
        exact ⟨l', by rw [h]⟩
    · rw [polyWind_open, openWind_cons]
      have e : p :: (l' ++ [z]) ++ [p] = (p :: l') ++ z :: [p] := by simp
      rw [e, openWind_append, openWind_cons, openWind_one]
      simp only [List.cons_append]; ring
    · rw [polyWind_open]; rfl

theorem openWind_convex {K : QPt → Prop} {q : QPt} {f : Pt → Int}
    (hf : ∀ u v : Pt, K u.q → K v.q → edgeWind u v q = f u - f v) (l : List Pt) (p z : Pt)
    (hp : K p.q) (hz : K z.q) (hl : ∀ x ∈ l, K x.q) : openWind (p :: l ++ [z]) q = f p - f z := by
  induction l generalizing p with
  | nil => simp only [List.cons_append, List.nil_append, openWind_cons, openWind_one]; rw [hf p z hp hz]; ring
  | cons m l ih =>
    have hm := hl m (by simp)
    simp only [List.cons_append] at ih ⊢
    rw [openWind_cons, ih m hm (fun x hx => hl x (by simp [hx])), hf p m hp hm]; ring

theorem openWind_dedup (l : List ℂ) (p : Pt) (q : QPt) :
    openWind (p :: ((realOps toInt ratio).dedupFrom p l).map toInt) q = openWind (p :: l.map toInt) q := by
  induction l generalizing p with
  | nil => rfl
  | cons a l ih =>
    rw [FloatOps.dedupFrom]
    have ha : (realOps toInt ratio).toInt a = toInt a := rfl
    rw [ha]
    split
    · rename_i e
      rw [ih, List.map_cons, openWind_cons, e, edgeWind_self, zero_add]
    · rw [List.map_cons, List.map_cons, openWind_cons, openWind_cons, ih]

/-! ### the shifted contour -/

/-- The sections of a path with their starts. -/
def StartsAt (ρ : ℝ) : ℂ → List (OSection ℂ) → Prop
  | _, [] => True
  | a, s :: ss => OSect ρ a s ∧ StartsAt ρ s.b ss

/-- The end of the last section. -/
def lastEnd : ℂ → List (OSection ℂ) → ℂ
  | a, [] => a
  | _, s :: ss => lastEnd s.b ss

theorem shifted_near {j : LineJoin} {ρ : ℝ} {z : OSection ℂ} {ss : List (OSection ℂ)} {c : List Pt}
    (h : Shifted (realOps toInt ratio) (j.normalize.oBuild ρ) z ss c) : ∀ {a : ℂ}, StartsAt ρ a ss →
    OSect ρ (lastEnd a ss) z → ∀ {good : ℂ → ℂ → Prop}, (∀ l s m, ss = l ++ s :: m → good (lastEnd a l) s.b) →
    (∃ s t, ss = s :: t ∧ ∃ c', c = toInt s.aTop :: c') ∧
    (∀ p ∈ c, ∃ u v, good u v ∧ Encl toInt (j.reach |ρ|) u v [p]) ∧
    (∀ d ∈ (c ++ [toInt z.aTop]).zip (c ++ [toInt z.aTop]).tail, ∃ u v, good u v ∧
      Encl toInt (j.reach |ρ|) u v [d.1, d.2]) ∧
    ∀ q : QPt, (∀ u v, good u v → ∃ K : QPt → Prop, QConvex K ∧ ¬ K q ∧
        ∀ ps, Encl toInt (j.reach |ρ|) u v ps → ∀ p ∈ ps, K p.q) →
      ∀ s t, ss = s :: t → openWind (c ++ [toInt z.aTop]) q + edgeWind (toInt a) (toInt s.aTop) q =
        openWind (toInt a :: ss.map fun s => toInt s.b) q + edgeWind (toInt (lastEnd a ss)) (toInt z.aTop) q := by
  have hge := join_reach_ge j (abs_nonneg ρ)
  have h0 := (abs_nonneg ρ).trans hge
  -- one section
  have step : ∀ {a : ℂ} {s z : OSection ℂ} {ps : List Pt}, OSect ρ a s → OSect ρ s.b z →
      (j.normalize.oBuild ρ).OExtra (realOps toInt ratio) s z ps →
      Encl toInt (j.reach |ρ|) a s.b (toInt a :: toInt s.b :: toInt s.aTop :: toInt z.aTop :: toInt s.bTop :: ps) := by
    intro a s z ps hs hz hx
    have hps := oExtra_around hs hz hx
    intro p hp
    simp only [List.mem_cons] at hp
    rcases hp with rfl | rfl | rfl | rfl | rfl | hp
    · exact ⟨a, Or.inl (by simpa using h0), rfl⟩
    · exact ⟨s.b, Or.inr (by simpa using h0), rfl⟩
    · exact ⟨_, Or.inl (hs.side.1.le.trans hge), rfl⟩
    · exact ⟨_, Or.inr (hz.side.1.le.trans hge), rfl⟩
    · exact ⟨_, Or.inr (hs.side.2.le.trans hge), rfl⟩
    · obtain ⟨w, h1, h2⟩ := hps p hp
      exact ⟨w, Or.inr h1, h2⟩
  have sub : ∀ {u v : ℂ} {l m : List Pt}, Encl toInt (j.reach |ρ|) u v l → (∀ p ∈ m, p ∈ l) →
      Encl toInt (j.reach |ρ|) u v m := fun h hm p hp => h p (hm p hp)
  have pairs : ∀ (l : List Pt) (d : Pt × Pt), d ∈ l.zip l.tail → d.1 ∈ l ∧ d.2 ∈ l := by
    intro l d hd
    obtain ⟨h1, h2⟩ := List.of_mem_zip (a := d.1) (b := d.2) hd
    exact ⟨h1, List.mem_of_mem_tail h2⟩
  have potential : ∀ {a : ℂ} {s z : OSection ℂ} {ps : List Pt}, 
      Encl toInt (j.reach |ρ|) a s.b (toInt a :: toInt s.b :: toInt s.aTop :: toInt z.aTop :: toInt s.bTop :: ps) →
      ∀ q : QPt, (∃ K : QPt → Prop, QConvex K ∧ ¬ K q ∧ ∀ ps, Encl toInt (j.reach |ρ|) a s.b ps → ∀ p ∈ ps, K p.q) →
      openWind (toInt s.aTop :: toInt s.bTop :: ps ++ [toInt z.aTop]) q + edgeWind (toInt a) (toInt s.aTop) q =
        edgeWind (toInt a) (toInt s.b) q + edgeWind (toInt s.b) (toInt z.aTop) q := by
    rintro a s z ps he q ⟨K, k1, k2, k3⟩
    have hk := k3 _ he
    obtain ⟨f, hf⟩ := edgeWind_convex k1 k2
    rw [openWind_convex hf (toInt s.bTop :: ps) _ _ (hk _ (by simp)) (hk _ (by simp))
      (fun x hx => hk x (by simp only [List.mem_cons] at hx ⊢; tauto)),
      hf _ _ (hk _ (by simp)) (hk _ (by simp)), hf _ _ (hk _ (by simp)) (hk _ (by simp)),
      hf _ _ (hk _ (by simp)) (hk _ (by simp))]
    ring
  induction h with
  | one s hx =>
    rename_i ps
    intro a hs hz good hg
    have hgs := hg [] s [] rfl
    have he := step hs.1 hz hx
    refine ⟨⟨s, [], rfl, _, rfl⟩, ?_, ?_, ?_⟩
    · intro p hp
      refine ⟨_, _, hgs, sub he ?_⟩
      intro p' hp'
      rw [List.mem_singleton.1 hp']
      simp only [List.mem_cons] at hp ⊢
      tauto
    · intro d hd
      refine ⟨_, _, hgs, sub he ?_⟩
      obtain ⟨h1, h2⟩ := pairs _ d hd
      intro p' hp'
      simp only [List.mem_cons, List.mem_append, List.not_mem_nil, or_false] at h1 h2 hp' ⊢
      rcases hp' with rfl | rfl <;> tauto
    · intro q hq s' t' est
      obtain ⟨rfl, -⟩ := List.cons.inj est
      have := potential he q (hq _ _ hgs)
      simp only [List.map_cons, List.map_nil, openWind_cons, openWind_one, lastEnd, add_zero]
      exact this
  | cons s s1 hx hsh ih =>
    rename_i ss ps c
    intro a hs hz good hg
    have hgs := hg [] s _ rfl
    have he := step hs.1 hs.2.1 hx
    obtain ⟨⟨s', t, e1, c', e2⟩, i2, i3, i4⟩ := ih hs.2 hz (good := good) (fun l s' m e => by
      have := hg (s :: l) s' m (by rw [e]; rfl)
      exact this)
    obtain ⟨rfl, rfl⟩ := List.cons.inj e1
    refine ⟨⟨s, _, rfl, _, rfl⟩, ?_, ?_, ?_⟩
    · intro p hp
      rcases List.mem_append.1 hp with hp | hp
      · refine ⟨_, _, hgs, sub he ?_⟩
        intro p' hp'
        rw [List.mem_singleton.1 hp']
        simp only [List.mem_cons] at hp ⊢
        tauto
      · exact i2 p hp
    · intro d hd
      have hd' : d ∈ (toInt s.aTop :: toInt s.bTop :: ps ++ [toInt s1.aTop]).zip
            (toInt s.aTop :: toInt s.bTop :: ps ++ [toInt s1.aTop]).tail ∨
          d ∈ (c ++ [toInt z.aTop]).zip (c ++ [toInt z.aTop]).tail := by
        rw [e2] at hd ⊢
        have key : ∀ (l m : List Pt) (p : Pt), d ∈ (l ++ p :: m).zip (l ++ p :: m).tail →
            d ∈ (l ++ [p]).zip (l ++ [p]).tail ∨ d ∈ (p :: m).zip (p :: m).tail := by
          intro l
          induction l with
          | nil => intro m p h; exact Or.inr h
          | cons x l ih =>
            intro m p h
            cases l with
            | nil =>
              simp only [List.cons_append, List.nil_append, List.tail_cons, List.zip_cons_cons, List.mem_cons] at h ⊢
              rcases h with h | h
              · left; left; exact h
              · right; exact h
            | cons y l =>
              have ih' := ih m p
              simp only [List.cons_append, List.tail_cons, List.zip_cons_cons, List.mem_cons] at h ih' ⊢
              rcases h with h | h
              · left; left; exact h
              · rcases ih' h with h | h
                · left; right; exact h
                · right; exact h
        have hd2 : d ∈ ((toInt s.aTop :: toInt s.bTop :: ps) ++ toInt s1.aTop :: (c' ++ [toInt z.aTop])).zip
          ((toInt s.aTop :: toInt s.bTop :: ps) ++ toInt s1.aTop :: (c' ++ [toInt z.aTop])).tail := by
          have e : (toInt s.aTop :: toInt s.bTop :: ps) ++ toInt s1.aTop :: (c' ++ [toInt z.aTop]) =
            toInt s.aTop :: toInt s.bTop :: ps ++ toInt s1.aTop :: c' ++ [toInt z.aTop] := by simp
          rw [e]; exact hd
        exact key _ _ _ hd2
      rcases hd' with hd | hd
      · refine ⟨_, _, hgs, sub he ?_⟩
        obtain ⟨h1, h2⟩ := pairs _ d hd
        intro p' hp'
        simp only [List.mem_cons, List.mem_append, List.not_mem_nil, or_false] at h1 h2 hp' ⊢
        rcases hp' with rfl | rfl <;> tauto
      · exact i3 d hd
    · intro q hq s' t' est
      obtain ⟨rfl, -⟩ := List.cons.inj est
      have h1 := potential he q (hq _ _ hgs)
      have h2 := i4 q hq _ _ rfl
      have e : toInt s.aTop :: toInt s.bTop :: ps ++ c ++ [toInt z.aTop] =
          (toInt s.aTop :: toInt s.bTop :: ps) ++ toInt s1.aTop :: (c' ++ [toInt z.aTop]) := by
        rw [e2]; simp
      have hT : (realOps toInt ratio).toInt = toInt := rfl
      rw [hT, e, openWind_append, List.map_cons, openWind_cons]
      rw [e2] at h2
      simp only [List.cons_append] at h1 h2 ⊢
      simp only [lastEnd] at h2 ⊢
      linarith

/-! ### the sections of a path -/

theorem oSectionsFrom_ends (ρ : ℝ) : ∀ (l : List ℂ) (p : ℂ),
    ((realOps toInt ratio).oSectionsFrom ρ p l).map (fun s => toInt s.b) = l.map toInt
  | [], _ => rfl
  | q :: l, p => by
    rw [FloatOps.oSectionsFrom, List.map_cons, List.map_cons, oSectionsFrom_ends ρ l q]; rfl

theorem oSectionsFrom_lastEnd (ρ : ℝ) : ∀ (l : List ℂ) (p : ℂ),
    lastEnd p ((realOps toInt ratio).oSectionsFrom ρ p l) = (p :: l).getLast (by simp)
  | [], _ => rfl
  | q :: l, p => by
    rw [FloatOps.oSectionsFrom, List.getLast_cons (by simp)]
    exact oSectionsFrom_lastEnd ρ l q

theorem dedupFrom_last : ∀ (l : List ℂ) (p : ℂ),
    toInt ((p :: (realOps toInt ratio).dedupFrom (toInt p) l).getLast (by simp)) = toInt ((p :: l).getLast (by simp))
  | [], _ => rfl
  | q :: l, p => by
    have hq : (realOps toInt ratio).toInt q = toInt q := rfl
    have e : (realOps toInt ratio).dedupFrom (toInt p) (q :: l) = if toInt q = toInt p then
      (realOps toInt ratio).dedupFrom (toInt p) l else q :: (realOps toInt ratio).dedupFrom (toInt q) l := by
      rw [FloatOps.dedupFrom, hq]
    by_cases h : toInt q = toInt p
    · simp only [e, if_pos h]
      rw [dedupFrom_last l p, List.getLast_cons (a := p) (l := q :: l) (by simp)]
      cases l with
      | nil => exact h.symm
      | cons y l => rw [List.getLast_cons (a := p) (l := y :: l) (by simp), List.getLast_cons (a := q) (l := y :: l) (by simp)]
    · simp only [e, if_neg h]
      rw [List.getLast_cons (a := p) (l := q :: _) (by simp), List.getLast_cons (a := p) (l := q :: l) (by simp),
        dedupFrom_last l q]

theorem dedupFrom_sub : ∀ (l : List ℂ) (p : Pt), ∀ x ∈ (realOps toInt ratio).dedupFrom p l, x ∈ l
  | [], _ => by simp [FloatOps.dedupFrom]
  | q :: l, p => by
    intro x hx
    rw [FloatOps.dedupFrom] at hx
    split at hx
    · exact List.mem_cons_of_mem _ (dedupFrom_sub l p x hx)
    · rcases List.mem_cons.1 hx with rfl | hx
      · simp
      · exact List.mem_cons_of_mem _ (dedupFrom_sub l _ x hx)

theorem oSectionsFrom_mem (ρ : ℝ) : ∀ (l : List ℂ) (p w : ℂ), toInt w = toInt p →
    StartsAt ρ p ((realOps toInt ratio).oSectionsFrom ρ p ((realOps toInt ratio).dedupFrom (toInt p) l)) ∧
    ∀ l1 s m, (realOps toInt ratio).oSectionsFrom ρ p ((realOps toInt ratio).dedupFrom (toInt p) l) = l1 ++ s :: m →
      (lastEnd p l1 = p ∨ lastEnd p l1 ∈ l) ∧ s.b ∈ l ∧ ∃ w', [w', s.b] <:+: w :: l ∧ toInt w' = toInt (lastEnd p l1)
  | [], _, _, _ => by simp [FloatOps.dedupFrom, FloatOps.oSectionsFrom, StartsAt]
  | q :: l, p, w, hw => by
    rw [FloatOps.dedupFrom]
    have hq : (realOps toInt ratio).toInt q = toInt q := rfl
    rw [hq]
    split
    · rename_i e
      obtain ⟨h1, h2⟩ := oSectionsFrom_mem ρ l p q e
      refine ⟨h1, fun l1 s m hs => ?_⟩
      obtain ⟨h2, h3, w', h4, h5⟩ := h2 l1 s m hs
      exact ⟨h2.imp_right (List.mem_cons_of_mem _), List.mem_cons_of_mem _ h3, w', List.infix_cons h4, h5⟩
    · rename_i e
      rw [FloatOps.oSectionsFrom]
      obtain ⟨h1, h2⟩ := oSectionsFrom_mem ρ l q q rfl
      refine ⟨⟨osect_real ρ ?_, h1⟩, ?_⟩
      · rintro rfl; exact e rfl
      · intro l1 s m hs
        cases l1 with
        | nil =>
          obtain ⟨rfl, -⟩ := List.cons.inj hs
          refine ⟨Or.inl rfl, ?_, w, ?_, hw⟩
          · show q ∈ q :: l; simp
          · exact ⟨[], l, rfl⟩
        | cons t l1 =>
          obtain ⟨rfl, hs'⟩ := List.cons.inj hs
          obtain ⟨h2, h3, w', h4, h5⟩ := h2 l1 s m hs'
          refine ⟨?_, List.mem_cons_of_mem _ h3, w', List.infix_cons h4, h5⟩
          show lastEnd q l1 = p ∨ lastEnd q l1 ∈ q :: l
          rcases h2 with h2 | h2
          · exact Or.inr (by rw [h2]; simp)
          · exact Or.inr (List.mem_cons_of_mem _ h2)

section
variable {g : ℝ} {c : ℂ} {ein : ℝ}

/-- The shifted contour of a closed path: every edge lies within reach of one edge of the path, and it winds around points
farther away as the path itself, converted to the grid. -/
theorem outlinePieces_near (hg : 0 < g) {j : LineJoin} {ρ : ℝ} {path : List ℂ} (hseam : Seam toInt path)
    (hG : GridNear toInt g c ein (j.reach |ρ|) path) {cs : List (List Pt)}
    (h : OutlinePieces (realOps toInt ratio) ρ (j.normalize.oBuild ρ) path cs) :
    (∀ d ∈ cs.flatMap polyEdges, ∃ u v, PathEdge true path u v ∧ ∀ p, p = d.1 ∨ p = d.2 →
      InRange p ∧ NearLine (j.reach |ρ| + 3 * (Real.sqrt 2 * ein / g)) (fromGrid g c p.q) u v) ∧
    ∀ q, ¬ NearPath (j.reach |ρ| + 3 * (Real.sqrt 2 * ein / g)) true path (fromGrid g c q) →
      polysWind cs q = polyWind (path.map toInt) q := by
  have hR : 0 ≤ j.reach |ρ| := (abs_nonneg ρ).trans (join_reach_ge j (abs_nonneg ρ))
  unfold OutlinePieces FloatOps.oClosedSections at h
  cases hl : path.getLast? with
  | none =>
    rw [List.getLast?_eq_none_iff] at hl
    subst hl
    rcases h with ⟨-, rfl⟩ | ⟨first, d, h1, -⟩
    · exact ⟨by simp, fun q _ => rfl⟩
    · cases h1
  | some z =>
    rw [hl] at h
    dsimp only at h
    have hT : (realOps toInt ratio).toInt z = toInt z := rfl
    rw [hT] at h
    have hzm := List.mem_of_mem_getLast? hl
    have hpw : ∀ q, polyWind (path.map toInt) q =
        openWind (toInt z :: ((realOps toInt ratio).dedupFrom (toInt z) path).map toInt) q := by
      intro q
      rw [openWind_dedup, ← polyWind_last (by rw [List.getLast?_map, hl]; rfl)]
    rcases h with ⟨h0, rfl⟩ | ⟨first, d, h1, h2, rfl⟩
    · refine ⟨by simp, fun q _ => ?_⟩
      have hnil : (realOps toInt ratio).dedupFrom (toInt z) path = [] := by
        cases hd : (realOps toInt ratio).dedupFrom (toInt z) path with
        | nil => rfl
        | cons y ys => rw [hd] at h0; cases h0
      rw [hpw q, hnil, List.map_nil, openWind_one]; rfl
    · obtain ⟨m1, m2⟩ := oSectionsFrom_mem (toInt := toInt) (ratio := ratio) ρ path z z rfl
      -- the first section starts at `z`, the last one ends there
      have hend : lastEnd z ((realOps toInt ratio).oSectionsFrom ρ z ((realOps toInt ratio).dedupFrom (toInt z) path)) = z := by
        rw [oSectionsFrom_lastEnd]
        have hmem : ((z :: (realOps toInt ratio).dedupFrom (toInt z) path).getLast (by simp)) ∈ path := by
          rcases List.mem_cons.1 (List.getLast_mem (l := z :: (realOps toInt ratio).dedupFrom (toInt z) path) (by simp)) with e | e
          · rw [e]; exact hzm
          · exact dedupFrom_sub _ _ _ e
        refine hseam z hl _ hmem ((dedupFrom_last (toInt := toInt) (ratio := ratio) path z).trans ?_)
        congr 1
        cases path with
        | nil => cases hl
        | cons y ys =>
          rw [List.getLast_cons (by simp)]
          rw [List.getLast?_eq_getLast_of_ne_nil (by simp)] at hl
          exact Option.some.inj hl
      have hfirst : OSect ρ z first := by
        cases hs : (realOps toInt ratio).oSectionsFrom ρ z ((realOps toInt ratio).dedupFrom (toInt z) path) with
        | nil => rw [hs] at h1; cases h1
        | cons s t =>
          rw [hs] at h1 m1
          cases h1
          exact m1.1
      obtain ⟨⟨s, t, e1, c', e2⟩, k2, k3, k4⟩ := shifted_near h2 m1 (by rw [hend]; exact hfirst)
        (good := fun u v => u ∈ path ∧ v ∈ path ∧ ∃ w, PathEdge true path w v ∧ toInt w = toInt u) (by
          intro l1 s m hs
          obtain ⟨a1, a2, w, a3, a4⟩ := m2 l1 s m hs
          refine ⟨?_, a2, w, ?_, a4⟩
          · rcases a1 with a1 | a1
            · rw [a1]; exact hzm
            · exact a1
          · rcases List.infix_cons_iff.1 a3 with a3 | a3
            · right
              obtain ⟨k, hk⟩ := a3
              simp only [List.cons_append, List.nil_append, List.cons.injEq] at hk
              refine ⟨rfl, by rw [hk.1]; exact hl, ?_⟩
              rw [← hk.2]; rfl
            · exact Or.inl a3)
      have hf1 : first = s := by rw [e1] at h1; cases h1; rfl
      subst hf1
      constructor
      · intro e he
        rw [List.flatMap_cons, List.flatMap_nil, List.append_nil] at he
        have he' : e ∈ (d ++ [toInt first.aTop]).zip (d ++ [toInt first.aTop]).tail := by
          rw [e2] at he ⊢
          have key : ∀ (l : List Pt) (p z : Pt), ((p :: l).zip (l ++ [z])) = ((p :: l ++ [z]).zip (l ++ [z])) := by
            intro l
            induction l with
            | nil => intro p z; rfl
            | cons m l ih =>
              intro p z
              rw [List.cons_append, List.zip_cons_cons, ih m z]; rfl
          rw [show polyEdges (toInt first.aTop :: c') = (toInt first.aTop :: c').zip (c' ++ [toInt first.aTop]) from rfl,
            key] at he
          exact he
        obtain ⟨u, v, ⟨g1, g2, w, g3, g4⟩, hE⟩ := k3 e he'
        refine ⟨w, v, g3, ?_⟩
        have := encl_near hg hG hR g1 g2 g3.mem.1 g4 hE
        rintro p (rfl | rfl)
        · exact this _ (by simp)
        · exact this _ (by simp)
      · intro q hq
        have := k4 q (by
          rintro u v ⟨g1, g2, w, g3, g4⟩
          refine ⟨_, qconvex_near g c (j.reach |ρ| + 3 * (Real.sqrt 2 * ein / g)) w v, fun hn => hq ⟨w, v, g3, hn⟩, ?_⟩
          intro ps hE p hp
          exact (encl_near hg hG hR g1 g2 g3.mem.1 g4 hE p hp).2) first t e1
        rw [hend] at this
        rw [hpw q, ← oSectionsFrom_ends (ratio := ratio) ρ _ z]
        have e5 : polysWind [d] q = openWind (d ++ [toInt first.aTop]) q := by
          unfold polysWind
          simp only [List.map_cons, List.map_nil, List.sum_cons, List.sum_nil, add_zero]
          rw [e2, polyWind_open]
        rw [e5]
        linarith

end

end IOverlay
