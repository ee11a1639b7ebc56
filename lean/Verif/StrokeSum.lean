/-
The winding number of the sides of a stroke is not zero exactly where that of some part is not (proofs for C76).
-/
import Verif.StrokeNotch

namespace IOverlay
open Complex

/-- The parts along the given points. -/
inductive StripPart (toInt : ℂ → Pt) (s : StrokeStyle) (l : List ℂ) : List ℂ → Prop
  | section {u v : ℂ} : [u, v] <:+: l → StripPart toInt s l (sectionRect s.radius u v)
  | join {u v w : ℂ} : [u, v, w] <:+: l → StripPart toInt s l (v :: joinArc toInt s u v w)

/-- Consecutive points differ, and the sections are long enough. -/
structure Fits (r : ℝ) (l : List ℂ) : Prop where
  ne : l.IsChain (· ≠ ·)
  long : ∀ u v w, [u, v, w] <:+: l → r * |turnSin u v w| < ‖v - u‖ ∧ r * |turnSin u v w| < ‖w - v‖

theorem Fits.tail {r : ℝ} {u : ℂ} {l : List ℂ} (h : Fits r (u :: l)) : Fits r l :=
  ⟨h.ne.suffix (List.suffix_cons _ _), fun a b c hc => h.long a b c (hc.trans (List.suffix_cons _ _).isInfix)⟩

theorem StripPart.cons {toInt : ℂ → Pt} {s : StrokeStyle} {u v w : ℂ} {l P : List ℂ} (h : StripPart toInt s (u :: v :: w :: l) P) :
    P = sectionRect s.radius u v ∨ P = v :: joinArc toInt s u v w ∨ StripPart toInt s (v :: w :: l) P := by
  cases h with
  | @«section» a b h =>
    rcases List.infix_cons_iff.1 h with h | h
    · rw [List.cons_prefix_cons, List.cons_prefix_cons] at h
      obtain ⟨rfl, rfl, -⟩ := h
      exact Or.inl rfl
    · exact Or.inr (Or.inr (.section h))
  | @join a b c h =>
    rcases List.infix_cons_iff.1 h with h | h
    · rw [List.cons_prefix_cons, List.cons_prefix_cons, List.cons_prefix_cons] at h
      obtain ⟨rfl, rfl, rfl, -⟩ := h
      exact Or.inr (Or.inl rfl)
    · exact Or.inr (Or.inr (.join h))

theorem StripPart.mono {toInt : ℂ → Pt} {s : StrokeStyle} {u : ℂ} {l P : List ℂ} (h : StripPart toInt s l P) :
    StripPart toInt s (u :: l) P := by
  cases h with
  | «section» h => exact .section (h.trans (List.suffix_cons _ _).isInfix)
  | join h => exact .join (h.trans (List.suffix_cons _ _).isInfix)

theorem StripPart.pair {toInt : ℂ → Pt} {s : StrokeStyle} {u v : ℂ} {P : List ℂ} (h : StripPart toInt s [u, v] P) :
    P = sectionRect s.radius u v := by
  cases h with
  | @«section» a b h =>
    have := h.eq_of_length rfl
    simp only [List.cons.injEq, and_true] at this
    obtain ⟨rfl, rfl⟩ := this
    rfl
  | join h =>
    have := h.length_le
    simp at this

section
variable {toInt : ℂ → Pt} {s : StrokeStyle} {z : ℂ}

/-- The winding number of the strip around `z`. -/
noncomputable def stripWind (toInt : ℂ → Pt) (s : StrokeStyle) (z : ℂ) (l : List ℂ) : Int :=
  stripVal toInt s (fun a b => edgeWindC a b z) l

theorem stripWind_cons (u v w : ℂ) (l : List ℂ) : stripWind toInt s z (u :: v :: w :: l) =
    polyWindC (sectionRect s.radius u v) z + polyWindC (v :: joinArc toInt s u v w) z - innerWind s.radius u v w z +
      stripWind toInt s z (v :: w :: l) := by
  unfold stripWind
  rw [stripVal, ← polyWindC_eq, ← polyWindC_eq, ← polyWindC_eq, innerWind_neg]
  ring

theorem stripWind_pair (u v : ℂ) : stripWind toInt s z [u, v] = polyWindC (sectionRect s.radius u v) z := rfl

theorem join_nonneg {u v w : ℂ} (h1 : u ≠ v) (h2 : v ≠ w) : 0 ≤ polyWindC (v :: joinArc toInt s u v w) z :=
  fan_nonneg (joinArc_around (toInt := toInt) s h1 h2).ccw z

/-- What is known of the first corner. -/
theorem Fits.first {u v w : ℂ} {l : List ℂ} (h : Fits s.radius (u :: v :: w :: l)) (z : ℂ) :
    0 ≤ polyWindC (sectionRect s.radius u v) z ∧ 0 ≤ polyWindC (v :: joinArc toInt s u v w) z ∧ 0 ≤ innerWind s.radius u v w z ∧
    innerWind s.radius u v w z ≤ polyWindC (sectionRect s.radius u v) z ∧
    innerWind s.radius u v w z ≤ polyWindC (sectionRect s.radius v w) z := by
  have hc := h.ne
  rw [List.isChain_cons_cons, List.isChain_cons_cons] at hc
  obtain ⟨h1, h2, -⟩ := hc
  obtain ⟨l1, l2⟩ := h.long u v w ⟨[], l, rfl⟩
  obtain ⟨i1, i2, i3⟩ := inner_le (radius_nonneg s) h1 h2 l1.le l2.le z
  exact ⟨rect_nonneg (radius_nonneg s) h1 z, join_nonneg h1 h2, i1, i2, i3⟩

theorem strip_bounds : ∀ (l : List ℂ) (u v : ℂ), Fits s.radius (u :: v :: l) →
    (∀ P, StripPart toInt s (u :: v :: l) P → polyWindC P z ≤ stripWind toInt s z (u :: v :: l)) ∧
    0 ≤ stripWind toInt s z (u :: v :: l) ∧
    ((∀ P, StripPart toInt s (u :: v :: l) P → polyWindC P z = 0) → stripWind toInt s z (u :: v :: l) = 0) := by
  intro l
  induction l with
  | nil =>
    intro u v h
    have hne := h.ne
    rw [List.isChain_cons_cons] at hne
    refine ⟨fun P hP => ?_, ?_, fun hz => ?_⟩
    · rw [hP.pair, stripWind_pair]
    · rw [stripWind_pair]; exact rect_nonneg (radius_nonneg s) hne.1 z
    · rw [stripWind_pair]; exact hz _ (.section List.infix_rfl)
  | cons w l ih =>
    intro u v h
    obtain ⟨a1, a2, a3, a4, a5⟩ := h.first (toInt := toInt) z
    obtain ⟨i1, i2, i3⟩ := ih v w h.tail
    have i4 := i1 _ (.section ⟨[], l, rfl⟩)
    rw [stripWind_cons]
    refine ⟨fun P hP => ?_, by omega, fun hz => ?_⟩
    · rcases hP.cons with rfl | rfl | hP
      · omega
      · omega
      · have := i1 P hP; omega
    · have z1 := hz _ (.section ⟨[], w :: l, rfl⟩ : StripPart toInt s _ (sectionRect s.radius u v))
      have z2 := hz _ (.join ⟨[], l, rfl⟩ : StripPart toInt s _ (v :: joinArc toInt s u v w))
      have z3 := i3 fun P hP => hz P hP.mono
      omega

/-- If an inner triangle of the strip does not contain `z`, both ends count. -/
theorem strip_gap : ∀ (l : List ℂ) (u v : ℂ), Fits s.radius (u :: v :: l) → ∀ {a b : ℂ}, [a, b] <:+ u :: v :: l →
    (∃ p q t, [p, q, t] <:+: u :: v :: l ∧ innerWind s.radius p q t z = 0) →
    ∀ m, m ≤ polyWindC (sectionRect s.radius u v) z → m ≤ polyWindC (sectionRect s.radius a b) z →
    ∀ P, StripPart toInt s (u :: v :: l) P → polyWindC P z + m ≤ stripWind toInt s z (u :: v :: l) := by
  intro l
  induction l with
  | nil =>
    rintro u v - a b - ⟨p, q, t, h, -⟩
    have := h.length_le
    simp at this
  | cons w l ih =>
    intro u v h a b hab hgap m m1 m2 P hP
    obtain ⟨a1, a2, a3, a4, a5⟩ := h.first (toInt := toInt) z
    obtain ⟨i1, i2, -⟩ := strip_bounds (toInt := toInt) (z := z) l v w h.tail
    have hab' : [a, b] <:+ v :: w :: l := by
      rcases List.suffix_cons_iff.1 hab with h | h
      · have := congrArg List.length h; simp at this
      · exact h
    have i4 := i1 _ (.section ⟨[], l, rfl⟩)
    have i5 := i1 _ (.section hab'.isInfix)
    rw [stripWind_cons]
    by_cases hz : innerWind s.radius u v w z = 0
    · rcases hP.cons with rfl | rfl | hP
      · omega
      · omega
      · have := i1 P hP; omega
    · have hgap' : ∃ p q t, [p, q, t] <:+: v :: w :: l ∧ innerWind s.radius p q t z = 0 := by
        obtain ⟨p, q, t, h1, h2⟩ := hgap
        rcases List.infix_cons_iff.1 h1 with h1 | h1
        · rw [List.cons_prefix_cons, List.cons_prefix_cons, List.cons_prefix_cons] at h1
          obtain ⟨rfl, rfl, rfl, -⟩ := h1
          exact absurd h2 hz
        · exact ⟨p, q, t, h1, h2⟩
      have IH := ih v w h.tail hab' hgap' (min m (polyWindC (sectionRect s.radius v w) z)) (min_le_right _ _)
        ((min_le_left _ _).trans m2)
      have j1 := IH _ (.section ⟨[], l, rfl⟩)
      have j2 := IH _ (.section hab'.isInfix)
      rcases hP.cons with rfl | rfl | hP
      · omega
      · omega
      · have := IH P hP; omega

theorem strip_along : ∀ (l : List ℂ) (u v : ℂ), Fits s.radius (u :: v :: l) → ∀ {a b : ℂ}, [a, b] <:+ u :: v :: l →
    (∀ p q t, [p, q, t] <:+: u :: v :: l → innerWind s.radius p q t z ≠ 0) → along a b z ≤ along u v z := by
  intro l
  induction l with
  | nil =>
    intro u v _ a b hab _
    have := hab.eq_of_length rfl
    simp only [List.cons.injEq, and_true] at this
    obtain ⟨rfl, rfl⟩ := this
    exact le_refl _
  | cons w l ih =>
    intro u v h a b hab hall
    have hab' : [a, b] <:+ v :: w :: l := by
      rcases List.suffix_cons_iff.1 hab with h | h
      · have := congrArg List.length h; simp at this
      · exact h
    have h1 := ih v w h.tail hab' fun p q t hp => hall p q t (hp.trans (List.suffix_cons _ _).isInfix)
    have hc := h.ne
    rw [List.isChain_cons_cons, List.isChain_cons_cons] at hc
    have h2 := inner_along hc.1 hc.2.1 (h.long u v w ⟨[], l, rfl⟩).1 (radius_nonneg s) (hall u v w ⟨[], l, rfl⟩)
    exact h1.trans h2.le

/-- The closed strip. -/
theorem ring_bounds {l : List ℂ} {u v a : ℂ} (h : Fits s.radius (u :: v :: l)) (hab : [a, u] <:+ u :: v :: l)
    (hc : a ≠ u) (l1 : r * |turnSin a u v| < ‖u - a‖) (l2 : r * |turnSin a u v| < ‖v - u‖) (hr : r = s.radius) :
    let V := stripWind toInt s z (u :: v :: l) + polyWindC (u :: joinArc toInt s a u v) z - innerWind s.radius a u v z
    (∀ P, StripPart toInt s (u :: v :: l) P → polyWindC P z ≤ V) ∧ polyWindC (u :: joinArc toInt s a u v) z ≤ V ∧ 0 ≤ V ∧
    ((∀ P, StripPart toInt s (u :: v :: l) P → polyWindC P z = 0) → polyWindC (u :: joinArc toInt s a u v) z = 0 → V = 0) := by
  subst hr
  intro V
  have huv : u ≠ v := (List.isChain_cons_cons.1 h.ne).1
  obtain ⟨i1, i2, i3⟩ := inner_le (radius_nonneg s) hc huv l1.le l2.le z
  obtain ⟨b1, b2, b3⟩ := strip_bounds (toInt := toInt) (z := z) l u v h
  have j := join_nonneg (toInt := toInt) (s := s) (z := z) hc huv
  have f1 := b1 _ (.section ⟨[], l, rfl⟩)
  have f2 := b1 _ (.section hab.isInfix)
  refine ⟨fun P hP => ?_, by omega, by omega, fun h1 h2 => ?_⟩
  · by_cases hz : innerWind s.radius a u v z = 0
    · have := b1 P hP; omega
    by_cases hgap : ∃ p q t, [p, q, t] <:+: u :: v :: l ∧ innerWind s.radius p q t z = 0
    · have := strip_gap (toInt := toInt) l u v h hab hgap _ i3 i2 P hP
      omega
    · exfalso
      have g1 := strip_along l u v h hab (z := z) fun p q t hp hn => hgap ⟨p, q, t, hp, hn⟩
      have g2 := inner_along hc huv l1 (radius_nonneg s) hz
      linarith
  · have z1 := h1 _ (.section ⟨[], l, rfl⟩ : StripPart toInt s _ (sectionRect s.radius u v))
    have z3 := b3 h1
    omega

theorem cap_nonneg {cap : LineCap} (hc : cap.Standard) (v : ℂ) {d : ℂ} (hd : d.re * d.re + d.im * d.im = 1) :
    0 ≤ polyWindC (capShape s.radius cap v d) z := by
  have := (cap_sum (sideSum_wind z) (radius_nonneg s) hc v hd).2
  rw [← polyWindC_eq, ← polyWindC_eq] at this
  rw [← this]
  exact fan_nonneg (capShape_around (radius_nonneg s) hc v hd).ccw z

end

/-! ### totals -/

/-- The sides of an open path. -/
theorem open_total {toInt : ℂ → Pt} {g : ℂ → ℂ → Int} (hg : SideSum g) {s : StrokeStyle} (h1 : s.startCap.Standard)
    (h2 : s.endCap.Standard) {u v a b : ℂ} {l : List ℂ} (hc : (u :: v :: l).IsChain (· ≠ ·)) (hab : [a, b] <:+ u :: v :: l) :
    ((pairsOf (capShape s.radius s.startCap u (-unitTo u v)) ++ stripSides toInt s (u :: v :: l) ++
      pairsOf (capShape s.radius s.endCap b (unitTo a b))).map fun d => g d.1 d.2).sum =
    cycSum g (capShape s.radius s.startCap u (-unitTo u v)) + stripVal toInt s g (u :: v :: l) +
      cycSum g (capShape s.radius s.endCap b (unitTo a b)) := by
  have huv : u ≠ v := (List.isChain_cons_cons.1 hc).1
  have hab' : a ≠ b := by
    have := hc.suffix hab
    simpa using this
  have d1 := unitTo_unit huv
  have d2 := unitTo_unit hab'
  have d1' : (-unitTo u v).re * (-unitTo u v).re + (-unitTo u v).im * (-unitTo u v).im = 1 := by simpa using d1
  rw [List.map_append, List.map_append, List.sum_append, List.sum_append, strip_sum hg s l u v hc hab,
    (cap_sum hg (radius_nonneg s) h1 u d1').1, (cap_sum hg (radius_nonneg s) h2 b d2).1]
  unfold startCross endCross halfLeft
  have e1 : u - I * -unitTo u v * s.radius = u + I * unitTo u v * s.radius := by ring
  have e2 : u + I * -unitTo u v * s.radius = u - I * unitTo u v * s.radius := by ring
  rw [e1, e2, hg.anti (u - I * unitTo u v * s.radius) (u + I * unitTo u v * s.radius)]
  ring

/-- The sides of a closed path. -/
theorem closed_total {toInt : ℂ → Pt} {g : ℂ → ℂ → Int} (hg : SideSum g) {s : StrokeStyle} {u v a : ℂ} {l : List ℂ}
    (hc : (u :: v :: l).IsChain (· ≠ ·)) (hab : [a, u] <:+ u :: v :: l) :
    ((stripSides toInt s (u :: v :: l) ++ cornerSides toInt s a u v).map fun d => g d.1 d.2).sum =
    stripVal toInt s g (u :: v :: l) + cycSum g (u :: joinArc toInt s a u v) +
      cycSum g [u, innerFrom s.radius a u v, innerTo s.radius a u v] := by
  have huv : u ≠ v := (List.isChain_cons_cons.1 hc).1
  have hau : a ≠ u := by
    have := hc.suffix hab
    simpa using this
  rw [List.map_append, List.sum_append, strip_sum hg s l u v hc hab, corner_sum hg s hau huv]
  ring

end IOverlay
