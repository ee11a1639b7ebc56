/-
The edges registered for one stroked path wind around a point, away from the sides, exactly if a part does (proofs for C76).
-/
import Verif.StrokeSum
import Verif.Props.Mesh

namespace IOverlay
open Complex

/-! ### lists -/

theorem chain_of_pairs {α : Type} {R : α → α → Prop} {l : List α} (h : ∀ a b, [a, b] <:+: l → R a b) : l.IsChain R := by
  rw [List.isChain_iff_forall_rel_of_append_cons_cons]
  rintro a b l1 l2 rfl
  exact h a b ⟨l1, l2, by simp⟩

theorem suffix_two {α : Type} {a b c d : α} {l : List α} (h1 : [a, b] <:+ l) (h2 : [c, d] <:+ l) : a = c ∧ b = d := by
  have := (List.suffix_of_suffix_length_le h1 h2 le_rfl).eq_of_length rfl
  simpa using this

theorem mem_route {closed : Bool} {path : List ℂ} {u : ℂ} (h : u ∈ route closed path) : u ∈ path := by
  unfold route at h
  split at h
  · simp only [List.mem_append, Option.mem_toList] at h
    rcases h with (h | h) | h
    · exact List.mem_of_getLast? h
    · exact h
    · exact List.mem_of_head? h
  · exact h

/-! ### sides -/

section
variable {toInt : ℂ → Pt} {s : StrokeStyle} {closed : Bool} {path : List ℂ}

theorem strip_side : ∀ (l : List ℂ), l <:+: route closed path → ∀ d ∈ stripSides toInt s l, StrokeSide toInt s closed path d.1 d.2 := by
  intro l
  induction l with
  | nil => intro _ d hd; simp [stripSides] at hd
  | cons u l ih =>
    intro hl d hd
    have ih := ih ((List.suffix_cons _ _).isInfix.trans hl)
    cases l with
    | nil => simp [stripSides] at hd
    | cons v l =>
      have h2 : [u, v] <:+: route closed path := List.IsInfix.trans ⟨[], l, by simp⟩ hl
      have sec : d ∈ sectionSides s.radius u v → StrokeSide toInt s closed path d.1 d.2 := by
        intro hd
        simp only [sectionSides, List.mem_cons, List.not_mem_nil, or_false] at hd
        rcases hd with rfl | rfl
        · exact .right h2
        · exact .left h2
      cases l with
      | nil => exact sec hd
      | cons w l =>
        have h3 : [u, v, w] <:+: route closed path := List.IsInfix.trans ⟨[], l, by simp⟩ hl
        rw [stripSides, List.mem_append, List.mem_append] at hd
        rcases hd with (hd | hd) | hd
        · exact sec hd
        · unfold cornerSides at hd
          rw [List.mem_append, List.mem_singleton] at hd
          rcases hd with hd | rfl
          · exact .outer h3 (mem_pairsOf.1 hd)
          · exact .inner h3
        · exact ih d hd

theorem norm_halfLeft (r : ℝ) (r0 : 0 ≤ r) (u v : ℂ) : ‖halfLeft r u v‖ ≤ r := by
  unfold halfLeft unitTo
  rw [norm_mul, norm_mul, Complex.norm_I, one_mul, norm_div, Complex.norm_real, Complex.norm_real, Real.norm_of_nonneg r0,
    norm_norm]
  have := div_self_le_one ‖v - u‖
  nlinarith

/-- The sides end within reach of the path. -/
theorem side_reach (hA : ApartOnGrid toInt closed path) (hcaps : closed = true ∨ (s.startCap.Standard ∧ s.endCap.Standard))
    {a b : ℂ} (h : StrokeSide toInt s closed path a b) :
    (∃ u ∈ path, ‖a - u‖ ≤ s.reach closed) ∧ (∃ u ∈ path, ‖b - u‖ ≤ s.reach closed) := by
  have r0 := radius_nonneg s
  have hj : s.join.reach s.radius ≤ s.reach closed := by
    unfold StrokeStyle.reach
    split
    · exact le_refl _
    · exact le_max_left _ _
  have hr : s.radius ≤ s.reach closed := (join_reach_ge s.join r0).trans hj
  have ne : ∀ u v, [u, v] <:+: route closed path → u ≠ v := fun u v h e => hA u v h (congrArg toInt e)
  have plus : ∀ x u v : ℂ, ‖x + halfLeft s.radius u v - x‖ ≤ s.reach closed := by
    intro x u v; rw [add_sub_cancel_left]; exact (norm_halfLeft _ r0 u v).trans hr
  have minus : ∀ x u v : ℂ, ‖x - halfLeft s.radius u v - x‖ ≤ s.reach closed := by
    intro x u v; rw [show x - halfLeft s.radius u v - x = -halfLeft s.radius u v by ring, norm_neg]
    exact (norm_halfLeft _ r0 u v).trans hr
  cases h with
  | @right u v h =>
    have hu := mem_route (h.subset (by simp : u ∈ [u, v]))
    have hv := mem_route (h.subset (by simp : v ∈ [u, v]))
    exact ⟨⟨u, hu, minus _ _ _⟩, ⟨v, hv, minus _ _ _⟩⟩
  | @left u v h =>
    have hu := mem_route (h.subset (by simp : u ∈ [u, v]))
    have hv := mem_route (h.subset (by simp : v ∈ [u, v]))
    exact ⟨⟨v, hv, plus _ _ _⟩, ⟨u, hu, plus _ _ _⟩⟩
  | @outer u v w a b h h' =>
    have hv := mem_route (h.subset (by simp : v ∈ [u, v, w]))
    have n1 := ne u v (List.IsInfix.trans ⟨[], [w], rfl⟩ h)
    have n2 := ne v w (List.IsInfix.trans ⟨[u], [], rfl⟩ h)
    have arc := (joinArc_around (toInt := toInt) s n1 n2).near
    exact ⟨⟨v, hv, (arc a (h'.subset (by simp))).trans hj⟩, ⟨v, hv, (arc b (h'.subset (by simp))).trans hj⟩⟩
  | @inner u v w h =>
    have hv := mem_route (h.subset (by simp : v ∈ [u, v, w]))
    refine ⟨⟨v, hv, ?_⟩, ⟨v, hv, ?_⟩⟩
    · unfold innerFrom
      split
      · exact plus _ _ _
      · exact minus _ _ _
    · unfold innerTo
      split
      · exact plus _ _ _
      · exact minus _ _ _
  | @startCap u v a b hc h h' =>
    subst hc
    have hcap := (hcaps.resolve_left (by simp)).1
    have hu := h.subset (by simp : u ∈ [u, v])
    have huv : u ≠ v := ne u v h.isInfix
    have d1 : (-unitTo u v).re * (-unitTo u v).re + (-unitTo u v).im * (-unitTo u v).im = 1 := by simpa using unitTo_unit huv
    have arc := (capShape_around r0 hcap u d1).near
    have hk : s.startCap.reach s.radius ≤ s.reach false := by
      unfold StrokeStyle.reach; simp
    exact ⟨⟨u, hu, (arc a (h'.subset (by simp))).trans hk⟩, ⟨u, hu, (arc b (h'.subset (by simp))).trans hk⟩⟩
  | @endCap u v a b hc h h' =>
    subst hc
    have hcap := (hcaps.resolve_left (by simp)).2
    have hv := h.subset (by simp : v ∈ [u, v])
    have huv : u ≠ v := ne u v h.isInfix
    have arc := (capShape_around r0 hcap v (unitTo_unit huv)).near
    have hk : s.endCap.reach s.radius ≤ s.reach false := by
      unfold StrokeStyle.reach; simp
    exact ⟨⟨v, hv, (arc a (h'.subset (by simp))).trans hk⟩, ⟨v, hv, (arc b (h'.subset (by simp))).trans hk⟩⟩

/-! ### rounding -/

/-- Rounding the ends of the sides changes the sum of the winding numbers by that of a potential. -/
theorem sum_moved {g : ℝ} (hg : 0 < g) {c : ℂ} {q : QPt} {δ : ℝ} : ∀ (ds : List (ℂ × ℂ)),
    (∀ d ∈ ds, ‖fromGrid g c (toInt d.1).q - d.1‖ ≤ δ ∧ ‖fromGrid g c (toInt d.2).q - d.2‖ ≤ δ ∧
      ¬ NearLine δ (fromGrid g c q) d.1 d.2) →
    (ds.map fun d => edgeWind (toInt d.1) (toInt d.2) q).sum =
      (ds.map fun d => edgeWindC d.1 d.2 (fromGrid g c q)).sum +
      (ds.map fun d => (fun a b => edgeWindC b (fromGrid g c (toInt b).q) (fromGrid g c q) -
        edgeWindC a (fromGrid g c (toInt a).q) (fromGrid g c q)) d.1 d.2).sum := by
  intro ds
  induction ds with
  | nil => intro _; rfl
  | cons d ds ih =>
    intro h
    have h1 := h d (by simp)
    have h2 := ih fun e he => h e (List.mem_cons_of_mem _ he)
    have e1 := edgeWindC_moved h1.1 h1.2.1 h1.2.2
    rw [edgeWindC_fromGrid hg] at e1
    simp only [List.map_cons, List.sum_cons] at h2 ⊢
    rw [h2, e1]
    ring

/-! ### one path -/

/-- What is known of the winding number of a path. -/
structure StrokeCovers (toInt : ℂ → Pt) (s : StrokeStyle) (closed : Bool) (path : List ℂ) (z : ℂ) (V : Int) : Prop where
  nonneg : 0 ≤ V
  iff : V ≠ 0 ↔ ∃ P, StrokePart toInt s closed path P ∧ polyWindC P z ≠ 0

theorem covers_open {u v a b : ℂ} {l : List ℂ} (hA : ApartOnGrid toInt false (u :: v :: l))
    (hL : LongSections s.radius false (u :: v :: l)) (h1 : s.startCap.Standard) (h2 : s.endCap.Standard)
    (hab : [a, b] <:+ u :: v :: l) (z : ℂ) :
    StrokeCovers toInt s false (u :: v :: l) z ((((pairsOf (capShape s.radius s.startCap u (-unitTo u v)) ++
      stripSides toInt s (u :: v :: l) ++
      pairsOf (capShape s.radius s.endCap b (unitTo a b))).map fun d => edgeWindC d.1 d.2 z)).sum) := by
  have hc : (u :: v :: l).IsChain (· ≠ ·) := chain_of_pairs fun a b h e => hA a b h (congrArg toInt e)
  have huv : u ≠ v := (List.isChain_cons_cons.1 hc).1
  have hab' : a ≠ b := by
    have := hc.suffix hab
    simpa using this
  have d1 : (-unitTo u v).re * (-unitTo u v).re + (-unitTo u v).im * (-unitTo u v).im = 1 := by simpa using unitTo_unit huv
  have hfit : Fits s.radius (u :: v :: l) := ⟨hc, fun a b c h => hL a b c h⟩
  rw [open_total (sideSum_wind z) h1 h2 hc hab, ← polyWindC_eq, ← polyWindC_eq]
  change StrokeCovers _ _ _ _ _ (_ + stripWind toInt s z (u :: v :: l) + _)
  obtain ⟨b1, b2, b3⟩ := strip_bounds (toInt := toInt) (z := z) l u v hfit
  have c1 := cap_nonneg (s := s) (z := z) h1 u d1
  have c2 := cap_nonneg (s := s) (z := z) h2 b (unitTo_unit hab')
  refine ⟨by omega, fun hne => ?_, ?_⟩
  · by_contra hno
    have zero : ∀ P, StrokePart toInt s false (u :: v :: l) P → polyWindC P z = 0 := by
      intro P hP
      by_contra hP'
      exact hno ⟨P, hP, hP'⟩
    apply hne
    rw [zero _ (.startCap rfl ⟨l, rfl⟩), zero _ (.endCap rfl hab), b3]
    · rfl
    · intro P hP
      cases hP with
      | «section» h => exact zero _ (.section h)
      | join h => exact zero _ (.join h)
  · rintro ⟨P, hP, hz⟩
    cases hP with
    | @«section» x y h =>
      have := b1 _ (.section h)
      have := rect_nonneg (radius_nonneg s) (fun e => hA x y h (congrArg toInt e) : x ≠ y) z
      omega
    | @join x y t h =>
      have := b1 _ (.join h)
      have := join_nonneg (toInt := toInt) (s := s) (z := z)
        (fun e => hA x y (List.IsInfix.trans ⟨[], [t], rfl⟩ h) (congrArg toInt e) : x ≠ y)
        (fun e => hA y t (List.IsInfix.trans ⟨[x], [], rfl⟩ h) (congrArg toInt e) : y ≠ t)
      omega
    | @startCap x y _ h =>
      rw [List.cons_prefix_cons, List.cons_prefix_cons] at h
      obtain ⟨rfl, rfl, -⟩ := h
      omega
    | @endCap x y _ h =>
      obtain ⟨rfl, rfl⟩ := suffix_two h hab
      omega

theorem covers_closed {p0 p1 a last : ℂ} {l : List ℂ} (hlast : (p1 :: l).getLast (by simp) = last)
    (hA : ApartOnGrid toInt true (p0 :: p1 :: l))
    (hL : LongSections s.radius true (p0 :: p1 :: l)) (hab : [a, last] <:+ last :: p0 :: p1 :: l) (z : ℂ) :
    StrokeCovers toInt s true (p0 :: p1 :: l) z
      (((stripSides toInt s (last :: p0 :: p1 :: l) ++ cornerSides toInt s a last p0).map fun d => edgeWindC d.1 d.2 z).sum) := by
  have hroute : route true (p0 :: p1 :: l) = (last :: p0 :: p1 :: l) ++ [p0] := by
    unfold route
    rw [if_pos rfl, List.getLast?_eq_getLast_of_ne_nil (by simp), List.getLast_cons (by simp), hlast]
    simp
  have hin : (last :: p0 :: p1 :: l) <:+: route true (p0 :: p1 :: l) := by rw [hroute]; exact ⟨[], [p0], by simp⟩
  have hend : [a, last, p0] <:+: route true (p0 :: p1 :: l) := by
    obtain ⟨t, ht⟩ := hab
    rw [hroute, ← ht]
    exact ⟨t, [], by simp⟩
  have hc : (last :: p0 :: p1 :: l).IsChain (· ≠ ·) :=
    chain_of_pairs fun a b h e => hA a b (h.trans hin) (congrArg toInt e)
  have hfit : Fits s.radius (last :: p0 :: p1 :: l) := ⟨hc, fun a b c h => hL a b c (h.trans hin)⟩
  have hal : a ≠ last := by
    have := hc.suffix hab
    simpa using this
  obtain ⟨l1, l2⟩ := hL a last p0 hend
  obtain ⟨b1, b2, b3, b4⟩ := ring_bounds (toInt := toInt) (z := z) hfit hab hal l1 l2 rfl
  rw [closed_total (sideSum_wind z) hc hab, ← polyWindC_eq, ← polyWindC_eq, innerWind_neg, ← sub_eq_add_neg]
  change StrokeCovers _ _ _ _ _ (stripWind toInt s z (last :: p0 :: p1 :: l) + _ - _)
  refine ⟨b3, fun hne => ?_, ?_⟩
  · by_contra hno
    have zero : ∀ P, StrokePart toInt s true (p0 :: p1 :: l) P → polyWindC P z = 0 := by
      intro P hP
      by_contra hP'
      exact hno ⟨P, hP, hP'⟩
    apply hne
    refine b4 (fun P hP => ?_) (zero _ (.join hend))
    cases hP with
    | «section» h => exact zero _ (.section (h.trans hin))
    | join h => exact zero _ (.join (h.trans hin))
  · rintro ⟨P, hP, hz⟩
    have hlastp0 : [last, p0] <:+: last :: p0 :: p1 :: l := ⟨[], p1 :: l, rfl⟩
    cases hP with
    | @«section» x y h =>
      have hxy := rect_nonneg (radius_nonneg s) (fun e => hA x y h (congrArg toInt e) : x ≠ y) z
      rw [hroute, List.infix_concat_iff] at h
      have : StripPart toInt s (last :: p0 :: p1 :: l) (sectionRect s.radius x y) := by
        rcases h with h | h
        · have e : [x, y] <:+ (last :: p0 :: p1 :: l) ++ [p0] := h
          have hl2 : [last, p0] <:+ (last :: p0 :: p1 :: l) ++ [p0] := by
            obtain ⟨t, ht⟩ := hab
            rw [← ht]
            exact ⟨t ++ [a], by simp⟩
          obtain ⟨rfl, rfl⟩ := suffix_two e hl2
          exact .section hlastp0
        · exact .section h
      have := b1 _ this
      omega
    | @join x y t h =>
      have hxyt := join_nonneg (toInt := toInt) (s := s) (z := z)
        (fun e => hA x y (List.IsInfix.trans ⟨[], [t], rfl⟩ h) (congrArg toInt e) : x ≠ y)
        (fun e => hA y t (List.IsInfix.trans ⟨[x], [], rfl⟩ h) (congrArg toInt e) : y ≠ t)
      rw [hroute, List.infix_concat_iff] at h
      rcases h with h | h
      · have hl2 : [a, last, p0] <:+ (last :: p0 :: p1 :: l) ++ [p0] := by
          obtain ⟨t, ht⟩ := hab
          rw [← ht]
          exact ⟨t, by simp⟩
        have := (List.suffix_of_suffix_length_le h hl2 le_rfl).eq_of_length rfl
        simp only [List.cons.injEq, and_true] at this
        obtain ⟨rfl, rfl, rfl⟩ := this
        omega
      · have := b1 _ (.join h)
        omega
    | startCap h => cases h
    | endCap h => cases h

/-- The edges registered for one path: they are its sides, rounded; away from the sides, they wind around a point exactly if a part
of the stroke does. -/
theorem path_wind {g : ℝ} (hg : 0 < g) {c : ℂ} {ein : ℝ} {q : QPt} (hA : ApartOnGrid toInt closed path)
    (hL : LongSections s.radius closed path) (hcaps : closed = true ∨ (s.startCap.Standard ∧ s.endCap.Standard))
    (hG : ∀ u ∈ path, ∀ y, ‖y - u‖ ≤ s.reach closed → GridOk toInt g c ein y) {segs : List (Seg CountOff)}
    (h : pathSegments (realOps toInt s.join.normalize.ratio) s.params closed path = some segs) :
    (∀ e ∈ segs, ∃ a b, StrokeSide toInt s closed path a b ∧ Joins e (toInt a) (toInt b)) ∧
    ((∀ a b, StrokeSide toInt s closed path a b → ¬ NearLine (Real.sqrt 2 * ein / g) (fromGrid g c q) a b) →
      StrokeCovers toInt s closed path (fromGrid g c q) (segsWind CountOff.subj segs q)) := by
  suffices H : ∃ ds : List (ℂ × ℂ), DrawnSides toInt ds segs ∧ (∀ d ∈ ds, StrokeSide toInt s closed path d.1 d.2) ∧
      (∀ f : ℂ → Int, (ds.map fun d => (fun a b => f b - f a) d.1 d.2).sum = 0) ∧
      StrokeCovers toInt s closed path (fromGrid g c q) ((ds.map fun d => edgeWindC d.1 d.2 (fromGrid g c q)).sum) by
    obtain ⟨ds, h1, h2, h3, h4⟩ := H
    constructor
    · intro e he
      obtain ⟨d, hd, hj⟩ := h1.edges e he
      obtain ⟨d', hd', rfl⟩ := List.mem_map.1 hd
      exact ⟨d'.1, d'.2, h2 d' hd', hj⟩
    · intro hfar
      rw [segsWind_eq_segSum, h1.sum _ (anti_wind q), sum_moved hg (c := c) (δ := Real.sqrt 2 * ein / g) ds,
        h3 fun a => edgeWindC a (fromGrid g c (toInt a).q) (fromGrid g c q), add_zero]
      · exact h4
      · intro d hd
        obtain ⟨⟨u, hu, r1⟩, ⟨u', hu', r2⟩⟩ := side_reach hA hcaps (h2 d hd)
        exact ⟨(hG u hu _ r1).close hg, (hG u' hu' _ r2).close hg, hfar _ _ (h2 d hd)⟩
  unfold pathSegments at h
  cases closed with
  | false =>
    simp only [Bool.false_eq_true, if_false] at h
    obtain ⟨c1, c2⟩ := hcaps.resolve_left (by simp)
    match path, h with
    | [], h => cases h
    | [_], h => cases h
    | u :: v :: l, h =>
      obtain ⟨a, b, hab, hd⟩ := drawn_open s (chain_of_pairs hA) h
      have hc : (u :: v :: l).IsChain (· ≠ ·) := chain_of_pairs fun a b h e => hA a b h (congrArg toInt e)
      refine ⟨_, hd, fun d hd => ?_, fun f => ?_, covers_open hA hL c1 c2 hab _⟩
      · rw [List.mem_append, List.mem_append] at hd
        rcases hd with (hd | hd) | hd
        · exact .startCap rfl ⟨l, rfl⟩ (mem_pairsOf.1 hd)
        · exact strip_side _ List.infix_rfl d hd
        · exact .endCap rfl hab (mem_pairsOf.1 hd)
      · rw [open_total (sideSum_pot f) c1 c2 hc hab, cycSum_pot, cycSum_pot, stripVal_pot]; rfl
  | true =>
    simp only [if_true, Option.some.injEq] at h
    match path, h with
    | [], h =>
      refine ⟨[], ?_, by simp, fun f => rfl, ?_⟩
      · rw [← h]; exact .nil
      · refine ⟨le_refl _, fun h => absurd rfl h, ?_⟩
        rintro ⟨P, hP, -⟩
        exfalso
        cases hP with
        | «section» h => have := h.length_le; simp [route] at this
        | join h => have := h.length_le; simp [route] at this
        | startCap h => cases h
        | endCap h => cases h
    | [p], h => exact absurd rfl (hA p p ⟨[], [p], rfl⟩)
    | p0 :: p1 :: l, h =>
      have hlast : (p1 :: l).getLast (by simp) = (p1 :: l).getLast (by simp) := rfl
      generalize hl : (p1 :: l).getLast (by simp) = last at hlast
      have hroute : route true (p0 :: p1 :: l) = (last :: p0 :: p1 :: l) ++ [p0] := by
        unfold route
        rw [if_pos rfl, List.getLast?_eq_getLast_of_ne_nil (by simp), List.getLast_cons (by simp), hl]
        simp
      have hin : (last :: p0 :: p1 :: l) <:+: route true (p0 :: p1 :: l) := by rw [hroute]; exact ⟨[], [p0], by simp⟩
      have hch : (last :: p0 :: p1 :: l).IsChain (fun a b => toInt a ≠ toInt b) :=
        chain_of_pairs fun a b h => hA a b (h.trans hin)
      obtain ⟨a, b, hab, rfl, hd⟩ := drawn_closed s hl hch
      rw [show (realOps toInt s.join.normalize.ratio).closedSegments s.radius s.params.join (p0 :: p1 :: l) = segs from h] at hd
      have hc : (b :: p0 :: p1 :: l).IsChain (· ≠ ·) :=
        chain_of_pairs fun a b h e => hA a b (h.trans hin) (congrArg toInt e)
      have hend : [a, b, p0] <:+: route true (p0 :: p1 :: l) := by
        obtain ⟨t, ht⟩ := hab
        rw [hroute, ← ht]
        exact ⟨t, [], by simp⟩
      refine ⟨_, hd, fun d hd => ?_, fun f => ?_, covers_closed hl hA hL hab _⟩
      · rw [List.mem_append] at hd
        rcases hd with hd | hd
        · exact strip_side _ hin d hd
        · unfold cornerSides at hd
          rw [List.mem_append, List.mem_singleton] at hd
          rcases hd with hd | rfl
          · exact .outer hend (mem_pairsOf.1 hd)
          · exact .inner hend
      · rw [closed_total (sideSum_pot f) hc hab, cycSum_pot, cycSum_pot, stripVal_pot]; rfl

end

end IOverlay
