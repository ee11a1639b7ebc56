/-
The edges registered for a stroke are its sides, rounded to the grid (proofs for C76).
-/
import Verif.StrokeParts

namespace IOverlay
open Complex

/-! ### consecutive points -/

/-- The pairs of consecutive elements. -/
def pairsOf {α : Type} : List α → List (α × α)
  | a :: b :: l => (a, b) :: pairsOf (b :: l)
  | _ => []

theorem mem_pairsOf {α : Type} {a b : α} : ∀ {l : List α}, (a, b) ∈ pairsOf l ↔ [a, b] <:+: l := by
  intro l
  induction l with
  | nil => simp [pairsOf]
  | cons x l ih =>
    cases l with
    | nil =>
      simp only [pairsOf, List.not_mem_nil, false_iff]
      intro h
      have := h.length_le
      simp at this
    | cons y l =>
      rw [pairsOf, List.mem_cons, ih, List.infix_cons_iff (l₂ := y :: l)]
      simp only [Prod.mk.injEq, List.cons_prefix_cons, List.nil_prefix, and_true]

theorem pairsOf_map {α β : Type} (f : α → β) : ∀ l : List α, pairsOf (l.map f) = (pairsOf l).map fun d => (f d.1, f d.2) := by
  intro l
  induction l with
  | nil => rfl
  | cons x l ih =>
    cases l with
    | nil => rfl
    | cons y l =>
      rw [List.map_cons] at ih ⊢
      rw [List.map_cons]
      simp only [pairsOf, List.map_cons]
      rw [ih]

theorem waySteps_pairs (p q : Pt) (ps : List Pt) : waySteps p ps q = pairsOf (p :: ps ++ [q]) := by
  induction ps generalizing p with
  | nil => rfl
  | cons m ps ih =>
    rw [waySteps, ih]; rfl

theorem pathSum_pairs (g : Pt → Pt → Int) (p q : Pt) (ps : List Pt) :
    pathSum g q p ps = ((pairsOf (p :: ps ++ [q])).map fun d => g d.1 d.2).sum := by
  induction ps generalizing p with
  | nil => simp [pathSum, pairsOf]
  | cons m ps ih =>
    rw [pathSum, ih]; rfl

/-! ### sides -/

/-- The two long sides of a section. -/
noncomputable def sectionSides (r : ℝ) (u v : ℂ) : List (ℂ × ℂ) :=
  [(u - halfLeft r u v, v - halfLeft r u v), (v + halfLeft r u v, u + halfLeft r u v)]

/-- The outer and the inner side of a corner. -/
noncomputable def cornerSides (toInt : ℂ → Pt) (s : StrokeStyle) (u v w : ℂ) : List (ℂ × ℂ) :=
  pairsOf (joinArc toInt s u v w) ++ [(innerFrom s.radius u v w, innerTo s.radius u v w)]

/-- The sides along the given points. -/
noncomputable def stripSides (toInt : ℂ → Pt) (s : StrokeStyle) : List ℂ → List (ℂ × ℂ)
  | u :: v :: w :: l => sectionSides s.radius u v ++ cornerSides toInt s u v w ++ stripSides toInt s (v :: w :: l)
  | [u, v] => sectionSides s.radius u v
  | _ => []

/-- The registered edges are the given sides, rounded to the grid. -/
structure DrawnSides (toInt : ℂ → Pt) (ds : List (ℂ × ℂ)) (l : List (Seg CountOff)) : Prop where
  sum : ∀ g, Anti g → segSum CountOff.subj g l = (ds.map fun d => g (toInt d.1) (toInt d.2)).sum
  edges : EdgesOf (ds.map fun d => (toInt d.1, toInt d.2)) l

section
variable {toInt : ℂ → Pt}

theorem DrawnSides.nil : DrawnSides toInt [] [] := ⟨fun _ _ => rfl, EdgesOf.nil _⟩

theorem DrawnSides.append {ds es : List (ℂ × ℂ)} {l m : List (Seg CountOff)} (h : DrawnSides toInt ds l)
    (h' : DrawnSides toInt es m) : DrawnSides toInt (ds ++ es) (l ++ m) := by
  refine ⟨fun g hg => ?_, ?_⟩
  · rw [segSum_append, h.sum g hg, h'.sum g hg, List.map_append, List.sum_append]
  · rw [List.map_append]
    exact (h.edges.mono fun d hd => List.mem_append_left _ hd).append (h'.edges.mono fun d hd => List.mem_append_right _ hd)

theorem Way.drawn {p q : Pt} {ps : List Pt} {l : List (Seg CountOff)} (h : Way p ps q l) {c : List ℂ}
    (hc : p :: ps ++ [q] = c.map toInt) : DrawnSides toInt (pairsOf c) l := by
  refine ⟨fun g hg => ?_, ?_⟩
  · rw [h.sum g hg, pathSum_pairs, hc, pairsOf_map, List.map_map]; rfl
  · have := h.edges
    rw [waySteps_pairs, hc, pairsOf_map] at this
    exact this

theorem drawn_section {ratio : ℝ} (r : ℝ) {u v : ℂ} (h : u ≠ v) :
    DrawnSides toInt (sectionSides r u v) ((realOps toInt ratio).addSection ((realOps toInt ratio).section r u v)) := by
  have hs := sect_real (toInt := toInt) (ratio := ratio) r h
  have e1 : (realOps toInt ratio).toInt ((realOps toInt ratio).section r u v).aBot = toInt (u - halfLeft r u v) := by
    rw [hs.aBot]; rfl
  have e2 : (realOps toInt ratio).toInt ((realOps toInt ratio).section r u v).bBot = toInt (v - halfLeft r u v) := by
    rw [hs.bBot]; rfl
  have e3 : (realOps toInt ratio).toInt ((realOps toInt ratio).section r u v).aTop = toInt (u + halfLeft r u v) := by
    rw [hs.aTop]; rfl
  have e4 : (realOps toInt ratio).toInt ((realOps toInt ratio).section r u v).bTop = toInt (v + halfLeft r u v) := by
    rw [hs.bTop]; rfl
  refine ⟨fun g hg => ?_, ?_⟩
  · rw [addSection_way _ _ hg, e1, e2, e3, e4]
    simp only [sectionSides, List.map_cons, List.map_nil, List.sum_cons, List.sum_nil]
    ring
  · intro e he
    simp only [FloatOps.addSection, List.mem_cons, List.not_mem_nil, or_false, e1, e2, e3, e4] at he
    rcases he with rfl | rfl
    · exact ⟨(toInt (v + halfLeft r u v), toInt (u + halfLeft r u v)), by simp [sectionSides], joins_bold _ _⟩
    · exact ⟨(toInt (u - halfLeft r u v), toInt (v - halfLeft r u v)), by simp [sectionSides], joins_bold _ _⟩

/-- The extra points of a join are those of the outer side. -/
theorem joint_arc (s : StrokeStyle) {u v w : ℂ} (h1 : u ≠ v) (h2 : v ≠ w) {top bot : List Pt}
    (h : JointPoints toInt s u v w top bot) :
    (LeftTurn u v w → top = [] ∧ toInt (v - halfLeft s.radius u v) :: bot ++ [toInt (v - halfLeft s.radius v w)] =
      (joinArc toInt s u v w).map toInt) ∧
    (¬ LeftTurn u v w → bot = [] ∧ toInt (v + halfLeft s.radius v w) :: top ++ [toInt (v + halfLeft s.radius u v)] =
      (joinArc toInt s u v w).map toInt) := by
  cases hj : s.join with
  | bevel =>
    obtain ⟨rfl, rfl⟩ := C73_bevel s hj u v w top bot h
    unfold joinArc
    rw [hj]
    unfold outerFrom outerTo
    constructor
    · intro hl; simp [hl]
    · intro hl; simp [hl]
  | round a =>
    have key := C73_round_join s a hj h1 h2 top bot h
    unfold joinArc
    rw [hj]
    dsimp only at key ⊢
    unfold outerFrom outerTo
    split_ifs at key with hs
    · obtain ⟨rfl, rfl⟩ := key
      rw [if_pos hs]
      constructor
      · intro hl; simp [hl]
      · intro hl; simp [hl]
    · obtain ⟨n, rfl, -, -, -, k1, k2⟩ := key
      rw [if_neg hs]
      constructor
      · intro hl
        rw [if_pos hl]
        refine ⟨(k1 hl).1, ?_⟩
        rw [show v - halfLeft s.radius u v - v = -(I * unitTo u v) * s.radius by unfold halfLeft; ring]
        exact (k1 hl).2
      · intro hl
        rw [if_neg hl]
        refine ⟨(k2 hl).1, ?_⟩
        rw [show v + halfLeft s.radius v w - v = I * unitTo v w * s.radius by unfold halfLeft; ring]
        exact (k2 hl).2
  | miter a =>
    have key := C73_miter s a hj h1 h2 top bot h
    unfold joinArc
    rw [hj]
    dsimp only at key ⊢
    unfold outerFrom outerTo
    set A := clampR a (0.01 * Real.pi) (0.99 * Real.pi)
    set φ := turnAngle (unitTo u v) (unitTo v w)
    by_cases hs : |(unitTo u v).re * (unitTo v w).im - (unitTo u v).im * (unitTo v w).re| < 0.0001
    · rw [if_pos hs] at key
      obtain ⟨rfl, rfl⟩ := key
      rw [if_pos (Or.inl hs)]
      constructor
      · intro hl; simp [hl]
      · intro hl; simp [hl]
    · rw [if_neg hs] at key
      obtain ⟨k1, k2⟩ := key
      constructor
      · intro hl
        obtain ⟨rfl, k⟩ := k1 hl
        refine ⟨rfl, ?_⟩
        simp only [if_pos hl]
        by_cases c1 : toInt (v - I * unitTo u v * s.radius) = toInt (v - I * unitTo v w * s.radius)
        · rw [if_pos c1] at k
          rw [if_pos (Or.inr (show toInt (v - halfLeft s.radius u v) = toInt (v - halfLeft s.radius v w) from c1)), k]
          rfl
        rw [if_neg c1] at k
        rw [if_neg (not_or.2 ⟨hs, show ¬ toInt (v - halfLeft s.radius u v) = toInt (v - halfLeft s.radius v w) from c1⟩)]
        by_cases c2 : Real.pi - φ < A
        · rw [if_pos c2] at k
          rw [if_pos c2, k]; rfl
        rw [if_neg c2] at k
        rw [if_neg c2]
        have k' := k.2
        change bot = if toInt (v - halfLeft s.radius u v + unitTo u v * (s.radius * Real.tan (φ / 2) : ℝ)) =
            toInt (v - halfLeft s.radius u v) ∨ toInt (v - halfLeft s.radius u v + unitTo u v * (s.radius * Real.tan (φ / 2) : ℝ)) =
            toInt (v - halfLeft s.radius v w) then [] else
            [toInt (v - halfLeft s.radius u v + unitTo u v * (s.radius * Real.tan (φ / 2) : ℝ))] at k'
        split_ifs at k' ⊢ with c3
        · rw [k']; rfl
        · rw [k']; rfl
      · intro hl
        obtain ⟨rfl, k⟩ := k2 hl
        refine ⟨rfl, ?_⟩
        simp only [if_neg hl]
        by_cases c1 : toInt (v + I * unitTo u v * s.radius) = toInt (v + I * unitTo v w * s.radius)
        · rw [if_pos c1] at k
          rw [if_pos (Or.inr (show toInt (v + halfLeft s.radius v w) = toInt (v + halfLeft s.radius u v) from c1.symm)), k]
          rfl
        rw [if_neg c1] at k
        rw [if_neg (not_or.2 ⟨hs, show ¬ toInt (v + halfLeft s.radius v w) = toInt (v + halfLeft s.radius u v) from
          fun hc => c1 hc.symm⟩)]
        by_cases c2 : Real.pi - φ < A
        · rw [if_pos c2] at k
          rw [if_pos c2, k]
          simp only [List.map_cons, List.map_nil, List.cons_append, List.nil_append]
          congr 3
          · unfold halfLeft; ring
          · congr 1
            unfold halfLeft; ring
        rw [if_neg c2] at k
        rw [if_neg c2]
        obtain ⟨k0, k'⟩ := k
        have e0 : v + halfLeft s.radius v w + -unitTo v w * (s.radius * Real.tan (φ / 2) : ℝ) =
            v + I * unitTo u v * s.radius + unitTo u v * (s.radius * Real.tan (φ / 2) : ℝ) := by
          rw [k0]; unfold halfLeft; ring
        rw [e0]
        change top = if toInt (v + I * unitTo u v * s.radius + unitTo u v * (s.radius * Real.tan (φ / 2) : ℝ)) =
            toInt (v + halfLeft s.radius u v) ∨ toInt (v + I * unitTo u v * s.radius + unitTo u v * (s.radius * Real.tan (φ / 2) : ℝ)) =
            toInt (v + halfLeft s.radius v w) then [] else
            [toInt (v + I * unitTo u v * s.radius + unitTo u v * (s.radius * Real.tan (φ / 2) : ℝ))] at k'
        by_cases c3 : toInt (v + I * unitTo u v * s.radius + unitTo u v * (s.radius * Real.tan (φ / 2) : ℝ)) =
            toInt (v + halfLeft s.radius u v) ∨ toInt (v + I * unitTo u v * s.radius + unitTo u v * (s.radius * Real.tan (φ / 2) : ℝ)) =
            toInt (v + halfLeft s.radius v w)
        · rw [if_pos c3] at k'
          rw [if_pos c3.symm, k']; rfl
        · rw [if_neg c3] at k'
          rw [if_neg fun hc => c3 hc.symm, k']; rfl

theorem drawn_join (s : StrokeStyle) {u v w : ℂ} (h1 : u ≠ v) (h2 : v ≠ w) :
    let o := realOps toInt s.join.normalize.ratio
    DrawnSides toInt (cornerSides toInt s u v w) (o.addJoin s.params.join (o.section s.radius u v) (o.section s.radius v w)) := by
  intro o
  obtain ⟨top, bot, -, hx, hw⟩ := addJoin_way o s.params.join (o.section s.radius u v) (o.section s.radius v w)
  obtain ⟨kl, kr⟩ := joint_arc s h1 h2 hx
  have s0 := sect_real (toInt := toInt) (ratio := s.join.normalize.ratio) s.radius h1
  have s1 := sect_real (toInt := toInt) (ratio := s.join.normalize.ratio) s.radius h2
  have e1 : o.toInt (o.section s.radius u v).bBot = toInt (v - halfLeft s.radius u v) := by rw [s0.bBot]; rfl
  have e2 : o.toInt (o.section s.radius u v).bTop = toInt (v + halfLeft s.radius u v) := by rw [s0.bTop]; rfl
  have e3 : o.toInt (o.section s.radius v w).aBot = toInt (v - halfLeft s.radius v w) := by rw [s1.aBot]; rfl
  have e4 : o.toInt (o.section s.radius v w).aTop = toInt (v + halfLeft s.radius v w) := by rw [s1.aTop]; rfl
  have hsum := hw.sum
  have hedge := hw.edges
  rw [e1, e2, e3, e4] at hsum hedge
  unfold cornerSides innerFrom innerTo
  by_cases hl : LeftTurn u v w
  · obtain ⟨rfl, k⟩ := kl hl
    simp only [if_pos hl]
    refine ⟨fun g hg => ?_, ?_⟩
    · rw [hsum g hg, pathSum_pairs, pathSum_pairs, k, pairsOf_map, List.map_map, List.map_append, List.sum_append]
      simp only [List.cons_append, List.nil_append, pairsOf, List.map_cons, List.map_nil, List.sum_cons, List.sum_nil]
      rw [add_comm]; rfl
    · rw [waySteps_pairs, waySteps_pairs, k, pairsOf_map] at hedge
      refine hedge.mono fun d hd => ?_
      simp only [List.cons_append, List.nil_append, pairsOf, List.mem_cons, List.map_append, List.mem_append, List.map_cons,
        List.map_nil, List.not_mem_nil, or_false] at hd ⊢
      exact hd.symm
  · obtain ⟨rfl, k⟩ := kr hl
    simp only [if_neg hl]
    refine ⟨fun g hg => ?_, ?_⟩
    · rw [hsum g hg, pathSum_pairs, pathSum_pairs, k, pairsOf_map, List.map_map, List.map_append, List.sum_append]
      simp only [List.cons_append, List.nil_append, pairsOf, List.map_cons, List.map_nil, List.sum_cons, List.sum_nil]
      rfl
    · rw [waySteps_pairs, waySteps_pairs, k, pairsOf_map] at hedge
      refine hedge.mono fun d hd => ?_
      simp only [List.cons_append, List.nil_append, pairsOf, List.mem_append, List.map_append, List.map_cons,
        List.map_nil] at hd ⊢
      exact hd

/-- The caps. -/
theorem drawn_caps (s : StrokeStyle) {u v : ℂ} (h : u ≠ v) :
    let o := realOps toInt s.join.normalize.ratio
    DrawnSides toInt (pairsOf (capShape s.radius s.startCap u (-unitTo u v)))
      (o.addToStart s.params.startCap (o.section s.radius u v)) ∧
    DrawnSides toInt (pairsOf (capShape s.radius s.endCap v (unitTo u v))) (o.addToEnd s.params.endCap (o.section s.radius u v)) := by
  intro o
  have key : ∀ cap : LineCap, (s.startCap = cap → o.startPiece s.params.startCap (o.section s.radius u v) =
      (capShape s.radius cap u (-unitTo u v)).map toInt) ∧ (s.endCap = cap → o.endPiece s.params.endCap (o.section s.radius u v) =
      (capShape s.radius cap v (unitTo u v)).map toInt) := by
    intro cap
    by_cases hr : ∃ a, cap = .round a
    · obtain ⟨a, rfl⟩ := hr
      obtain ⟨n, rfl, -, -, k1, k2⟩ := C73_round_cap (toInt := toInt) (ratio := s.join.normalize.ratio) a s h
      refine ⟨fun hc => ?_, fun hc => k2 hc⟩
      rw [k1 hc]
      unfold capShape
      dsimp only
      congr 2
      ring
    · have hr' : ∀ a, cap ≠ .round a := fun a ha => hr ⟨a, ha⟩
      obtain ⟨k1, k2⟩ := C73_cap (toInt := toInt) (ratio := s.join.normalize.ratio) s h cap hr'
      have i1 : (⟨1, -1⟩ : ℂ) = 1 - I := by apply Complex.ext <;> simp
      have i2 : (⟨1, 1⟩ : ℂ) = 1 + I := by apply Complex.ext <;> simp
      refine ⟨fun hc => ?_, fun hc => ?_⟩
      · rw [k1 hc]
        refine congrArg (List.map toInt) ?_
        cases cap with
        | round a => exact absurd rfl (hr' a)
        | butt =>
          simp only [capShape, List.map_nil, List.cons_append, List.nil_append, List.cons.injEq, and_true]
          exact ⟨by ring, by ring⟩
        | square =>
          simp only [capShape, List.map_cons, List.map_nil, List.cons_append, List.nil_append, List.cons.injEq, and_true, i1, i2]
          exact ⟨by ring, by ring, by ring, by ring⟩
        | custom ps =>
          have e : (fun p : ℂ => u - unitTo u v * (p * s.radius)) = fun p : ℂ => u + -unitTo u v * (p * s.radius) := by
            funext p; ring
          simp only [capShape]
          rw [e, show u + I * unitTo u v * s.radius = u - I * -unitTo u v * s.radius by ring,
            show u - I * unitTo u v * s.radius = u + I * -unitTo u v * s.radius by ring]
      · rw [k2 hc]
        refine congrArg (List.map toInt) ?_
        cases cap with
        | round a => exact absurd rfl (hr' a)
        | butt =>
          simp only [capShape, List.map_nil, List.cons_append, List.nil_append]
        | square =>
          simp only [capShape, List.map_cons, List.map_nil, List.cons_append, List.nil_append, List.cons.injEq, and_true, true_and,
            i1, i2]
          exact ⟨by ring, by ring⟩
        | custom ps => rfl
  exact ⟨(addToStart_way o s.params.startCap (o.section s.radius u v)).drawn ((key _).1 rfl),
    (addToEnd_way o s.params.endCap (o.section s.radius u v)).drawn ((key _).2 rfl)⟩

/-! ### paths -/

/-- The last section of a list of points. -/
theorem sectionLoop_drawn (s : StrokeStyle) : ∀ (l : List ℂ) (u v : ℂ), toInt u ≠ toInt v →
    (v :: l).IsChain (fun a b => toInt a ≠ toInt b) →
    let o := realOps toInt s.join.normalize.ratio
    DrawnSides toInt (stripSides toInt s (u :: v :: l))
      (o.addSection (o.section s.radius u v) ++
        (o.sectionLoop s.radius s.params.join (o.section s.radius u v) (toInt v) l).1) ∧
    ∃ a b, [a, b] <:+ u :: v :: l ∧
      (o.sectionLoop s.radius s.params.join (o.section s.radius u v) (toInt v) l).2 = o.section s.radius a b := by
  intro l
  induction l with
  | nil =>
    intro u v h _ o
    refine ⟨?_, u, v, List.suffix_rfl, rfl⟩
    rw [FloatOps.sectionLoop, List.append_nil]
    exact drawn_section s.radius fun hc => h (congrArg toInt hc)
  | cons w l ih =>
    intro u v h hc o
    rw [List.isChain_cons_cons] at hc
    obtain ⟨i1, a, b, i2, i3⟩ := ih v w hc.1 hc.2
    rw [FloatOps.sectionLoop]
    rw [if_neg (by exact fun e => hc.1 e.symm)]
    dsimp only
    refine ⟨?_, a, b, i2.trans (List.suffix_cons _ _), i3⟩
    rw [stripSides, List.append_assoc, List.append_assoc]
    refine (drawn_section s.radius fun hc => h (congrArg toInt hc)).append ?_
    refine (drawn_join s (fun hc => h (congrArg toInt hc)) fun e => hc.1 (congrArg toInt e)).append ?_
    exact i1

theorem drawn_open (s : StrokeStyle) {u v : ℂ} {l : List ℂ}
    (hc : (u :: v :: l).IsChain (fun a b => toInt a ≠ toInt b)) {segs : List (Seg CountOff)}
    (h : (realOps toInt s.join.normalize.ratio).openSegments s.radius s.params.join s.params.startCap s.params.endCap
      (u :: v :: l) = some segs) :
    ∃ a b, [a, b] <:+ u :: v :: l ∧
      DrawnSides toInt (pairsOf (capShape s.radius s.startCap u (-unitTo u v)) ++ stripSides toInt s (u :: v :: l) ++
        pairsOf (capShape s.radius s.endCap b (unitTo a b))) segs := by
  rw [List.isChain_cons_cons] at hc
  obtain ⟨i1, a, b, i2, i3⟩ := sectionLoop_drawn s l u v hc.1 hc.2
  unfold FloatOps.openSegments at h
  have hskip : (realOps toInt s.join.normalize.ratio).skipEqual ((realOps toInt s.join.normalize.ratio).toInt u) (v :: l) =
      v :: l := by
    rw [FloatOps.skipEqual, if_neg (by exact fun e => hc.1 e.symm)]
  dsimp only at h
  rw [hskip] at h
  dsimp only at h
  have hab : a ≠ b := by
    have h2 : [a, b].IsChain (fun a b => toInt a ≠ toInt b) :=
      (List.isChain_cons_cons.2 hc : (u :: v :: l).IsChain (fun a b => toInt a ≠ toInt b)).suffix i2
    rw [List.isChain_cons_cons] at h2
    exact fun e => h2.1 (congrArg toInt e)
  refine ⟨a, b, i2, ?_⟩
  rw [← Option.some.inj h]
  have c1 := (drawn_caps (toInt := toInt) s (fun e => hc.1 (congrArg toInt e) : u ≠ v)).1
  have c2 := (drawn_caps (toInt := toInt) s hab).2
  have := (c1.append i1).append c2
  rw [← i3] at this
  rw [List.append_assoc (FloatOps.addToStart _ _ _)]
  exact this

theorem drawn_closed (s : StrokeStyle) {p0 p1 : ℂ} {l : List ℂ} {last : ℂ} (hlast : (p1 :: l).getLast (by simp) = last)
    (hc : (last :: p0 :: p1 :: l).IsChain (fun a b => toInt a ≠ toInt b)) :
    ∃ a b, [a, b] <:+ last :: p0 :: p1 :: l ∧ b = last ∧
      DrawnSides toInt (stripSides toInt s (last :: p0 :: p1 :: l) ++ cornerSides toInt s a last p0)
        ((realOps toInt s.join.normalize.ratio).closedSegments s.radius s.params.join (p0 :: p1 :: l)) := by
  have hc' := hc
  rw [List.isChain_cons_cons] at hc
  obtain ⟨i1, a, b, i2, i3⟩ := sectionLoop_drawn s (p1 :: l) last p0 hc.1 hc.2
  have hb : b = last := by
    have h1 : (last :: p0 :: p1 :: l).getLast (by simp) = last := by
      rw [List.getLast_cons (by simp), List.getLast_cons (by simp)]; exact hlast
    have h2 := i2.getLast (by simp)
    rw [h1] at h2
    simpa using h2
  refine ⟨a, b, i2, hb, ?_⟩
  subst hb
  have hab : a ≠ b := by
    have h2 : [a, b].IsChain (fun a b => toInt a ≠ toInt b) := hc'.suffix i2
    rw [List.isChain_cons_cons] at h2
    exact fun e => h2.1 (congrArg toInt e)
  unfold FloatOps.closedSegments
  dsimp only
  have hskip : (realOps toInt s.join.normalize.ratio).skipEqual ((realOps toInt s.join.normalize.ratio).toInt b) (p0 :: p1 :: l) =
      p0 :: p1 :: l := by
    rw [FloatOps.skipEqual, if_neg (by exact fun e => hc.1 e.symm)]
  rw [hlast, hskip]
  dsimp only
  have := i1.append (drawn_join (toInt := toInt) s hab (fun e => hc.1 (congrArg toInt e) : b ≠ p0))
  rw [← i3] at this
  exact this

end

end IOverlay
