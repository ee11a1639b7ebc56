/-
Outlines meeting the hypotheses of C77: a square, and a square with a square hole.
-/
import Verif.Props.OutlineUnion
import Verif.Props.OutlineExample

namespace IOverlay
open Complex

/-! ### paths along the axes -/

theorem window_mem {α : Type} {l L : List α} (h : l <:+: L) : l ∈ L.tails.map (List.take l.length) := by
  obtain ⟨s, t, rfl⟩ := h
  refine List.mem_map.2 ⟨l ++ t, (List.mem_tails _ _).2 ⟨s, by simp⟩, by simp⟩

theorem unitTo_grid {a b : Pt} (h : a ≠ b) (hab : AxisPt a b) :
    unitTo (gridC a) (gridC b) = gridC ⟨(b.x - a.x).sign, (b.y - a.y).sign⟩ := by
  have hd : gridC b - gridC a = gridC ⟨b.x - a.x, b.y - a.y⟩ := by apply Complex.ext <;> simp [gridC]
  unfold unitTo
  rw [hd]
  refine axis_unit ?_ ?_
  · by_contra hc
    obtain ⟨ax, ay⟩ := a
    obtain ⟨bx, bY⟩ := b
    dsimp only at hc
    exact h (by rw [Pt.mk.injEq]; omega)
  · unfold AxisPt at hab; dsimp only; omega

/-- An edge along an axis. -/
def AxisEdge (a b : Pt) : Prop := a ≠ b ∧ AxisPt a b

instance (a b : Pt) : Decidable (AxisEdge a b) := by unfold AxisEdge; infer_instance

/-- A quarter turn. -/
def Quarter (a b c : Pt) : Prop := AxisEdge a b ∧ AxisEdge b c ∧
  (b.x - a.x).sign * (c.x - b.x).sign + (b.y - a.y).sign * (c.y - b.y).sign = 0

instance (a b c : Pt) : Decidable (Quarter a b c) := by unfold Quarter; infer_instance

theorem quarter_angle {a b c : Pt} (h : Quarter a b c) : bendAngle (gridC a) (gridC b) (gridC c) = Real.pi / 2 := by
  obtain ⟨⟨h1, h2⟩, ⟨h3, h4⟩, h5⟩ := h
  unfold bendAngle turnAngle
  rw [unitTo_grid h1 h2, unitTo_grid h3 h4]
  have : ((((b.x - a.x).sign * (c.x - b.x).sign + (b.y - a.y).sign * (c.y - b.y).sign : Int)) : ℝ) = 0 := by rw [h5]; norm_num
  simp only [gridC]
  push_cast at this
  rw [this, Real.arccos_zero]

theorem axis_length {a b : Pt} (h : AxisEdge a b) : ((|b.x - a.x| + |b.y - a.y| : Int) : ℝ) = ‖gridC b - gridC a‖ := by
  have hd : gridC b - gridC a = gridC ⟨b.x - a.x, b.y - a.y⟩ := by apply Complex.ext <;> simp [gridC]
  rw [hd]
  rcases h.2 with h | h
  · have : b.x - a.x = 0 := by omega
    rw [this]
    have e : gridC ⟨0, b.y - a.y⟩ = ((b.y - a.y : Int) : ℝ) * I := by apply Complex.ext <;> simp [gridC]
    rw [e, norm_mul, Complex.norm_real, Complex.norm_I, mul_one, Real.norm_eq_abs]
    simp
  · have : b.y - a.y = 0 := by omega
    rw [this]
    have e : gridC ⟨b.x - a.x, 0⟩ = (((b.x - a.x : Int) : ℝ) : ℂ) := by apply Complex.ext <;> simp [gridC]
    rw [e, Complex.norm_real, Real.norm_eq_abs]
    simp

theorem cutOff_quarter (δ : ℝ) {a b c : Pt} (h : Quarter a b c) : cutOff δ (gridC a) (gridC b) (gridC c) ≤ |δ| := by
  unfold cutOff
  split
  · exact abs_nonneg _
  · rw [quarter_angle h, show Real.pi / 2 / 2 = Real.pi / 4 by ring, Real.tan_pi_div_four, mul_one]

/-- The points of a closed path on the grid in turn. -/
def ringPts (l : List Pt) : List Pt := l.drop (l.length - 2) ++ l ++ l.take 1

theorem ringOf_grid (l : List Pt) : ringOf (l.map gridC) = (ringPts l).map gridC := by
  unfold ringOf ringPts
  simp

/-- Four points with quarter turns between them, and enough room. -/
def RoomWindow (d : Int) : List Pt → Bool
  | [t, u, v, w] => decide (Quarter t u v ∧ Quarter u v w ∧ 2 * d ≤ |v.x - u.x| + |v.y - u.y|)
  | _ => true

/-- Three points with a quarter turn. -/
def TurnWindow : List Pt → Bool
  | [u, v, w] => decide (Quarter u v w)
  | _ => true

/-- Two different points. -/
def ApartWindow : List Pt → Bool
  | [u, v] => decide (u ≠ v)
  | _ => true

/-- Room for the outline of a path along the axes. -/
theorem roomFor_grid {d : Int} {δ : ℝ} (hd : |δ| ≤ d) {l : List Pt}
    (h : ∀ m ∈ (ringPts l).tails.map (List.take 4), RoomWindow d m = true)
    (h3 : ∀ m ∈ (ringPts l).tails.map (List.take 3), TurnWindow m = true) : RoomFor δ (l.map gridC) := by
  refine ⟨fun t u v w hw => ?_, fun u v w hw _ => ?_⟩
  · rw [ringOf_grid, List.infix_map_iff] at hw
    obtain ⟨m, hm, he⟩ := hw
    match m, he with
    | [t', u', v', w'], he =>
      simp only [List.map_cons, List.map_nil, List.cons.injEq, and_true] at he
      obtain ⟨rfl, rfl, rfl, rfl⟩ := he
      have := h _ (window_mem hm)
      simp only [RoomWindow, decide_eq_true_eq] at this
      obtain ⟨q1, q2, q3⟩ := this
      have c1 := cutOff_quarter δ q1
      have c2 := cutOff_quarter δ q2
      rw [← axis_length q1.2.1]
      have : ((2 * d : Int) : ℝ) ≤ ((|v'.x - u'.x| + |v'.y - u'.y| : Int) : ℝ) := by exact_mod_cast q3
      push_cast at this ⊢
      linarith
  · rw [ringOf_grid, List.infix_map_iff] at hw
    obtain ⟨m, hm, he⟩ := hw
    match m, he with
    | [u', v', w'], he =>
      simp only [List.map_cons, List.map_nil, List.cons.injEq, and_true] at he
      obtain ⟨rfl, rfl, rfl⟩ := he
      have := h3 _ (window_mem hm)
      simp only [TurnWindow, decide_eq_true_eq] at this
      rw [quarter_angle this]
      linarith [Real.pi_pos]

theorem ringApart_grid {toInt : ℂ → Pt} (ht : ∀ p, toInt (gridC p) = p) {l : List Pt}
    (h : ∀ m ∈ (ringPts l).tails.map (List.take 2), ApartWindow m = true) : RingApart toInt (l.map gridC) := by
  intro u v hw
  rw [ringOf_grid, List.infix_map_iff] at hw
  obtain ⟨m, hm, he⟩ := hw
  match m, he with
  | [u', v'], he =>
    simp only [List.map_cons, List.map_nil, List.cons.injEq, and_true] at he
    obtain ⟨rfl, rfl⟩ := he
    rw [ht, ht]
    have := h _ (window_mem hm)
    simpa only [ApartWindow, decide_eq_true_eq] using this

/-! ### the square and its hole -/

theorem exO_fits : ∀ path, Counted exOutlineEnv exOStyle exOPaths path → FittingPath exOutlineEnv exOStyle exOPaths path := by
  intro path hp
  have := hp.1
  simp only [exOPaths, List.mem_cons, List.not_mem_nil, or_false] at this
  rcases this with rfl | rfl
  · have ha : outlineArea exOutlineEnv exOStyle exOPaths (exSquare.map gridC) < 0 := by rw [exO_area]; decide
    have h1 : exOStyle.growth (outlineArea exOutlineEnv exOStyle exOPaths (exSquare.map gridC)) = 10 := if_pos ha
    have h2 : alongPath (outlineArea exOutlineEnv exOStyle exOPaths (exSquare.map gridC)) (exSquare.map gridC) =
      exSquare.map gridC := if_pos ha
    constructor
    · rw [h2]; exact ringApart_grid exO_toInt (by decide)
    · rw [h1, h2]; exact roomFor_grid (d := 10) (by norm_num) (by decide) (by decide)
  · have ha : ¬ outlineArea exOutlineEnv exOStyle exOPaths (exHole.map gridC) < 0 := by rw [exO_area]; decide
    have h1 : exOStyle.growth (outlineArea exOutlineEnv exOStyle exOPaths (exHole.map gridC)) = -5 := if_neg ha
    have h2 : alongPath (outlineArea exOutlineEnv exOStyle exOPaths (exHole.map gridC)) (exHole.map gridC) =
      exHole.reverse.map gridC := by rw [List.map_reverse]; exact if_neg ha
    constructor
    · rw [h2]; exact ringApart_grid exO_toInt (by decide)
    · rw [h1, h2]; exact roomFor_grid (d := 5) (by norm_num) (by decide) (by decide)

open Classical in
/-- C77 applies to the square with a hole. -/
example : ∃ (outer holes : List (List Pt)), ∀ q, (∀ path, Counted exOutlineEnv exOStyle exOPaths path →
        ClearOf exOutlineEnv exOStyle exOPaths path (outlineError exOff exConfig 1 (1 / 2)) (fromGrid 1 0 q) ∧
        SimplyAround (exOStyle.growth (outlineArea exOutlineEnv exOStyle exOPaths path))
          (alongPath (outlineArea exOutlineEnv exOStyle exOPaths path) path) (fromGrid 1 0 q)) →
      polysWind (outer ++ holes) q =
        outerTurn true * (if 0 < partCount exOutlineEnv exOStyle exOPaths (fromGrid 1 0 q) then 1 else 0) := by
  have hcl : CleanAssumed exRaw := ⟨fun _ _ h => h, Keeps.edges fun _ _ => rfl⟩
  have hgood := C74_rectangle exOutlineEnv exOStyle exOPaths _ 1 0 (1 / 2) 0 exO_good
  have hf : ∀ parts, outlineParts exOutlineEnv exOff exRaw exOStyle exOPaths = some parts → FragFor exConfig parts.flatten [] :=
    fun _ _ => FragOk.list _ _
  obtain ⟨outer, holes, _, -, -, -, -, -, -, h⟩ := C77_many exOutlineEnv exOff exConfig exRaw exOff_assumed exRaw_assumed.1 hcl
    exOStyle true 0 exOPaths (by simp [exOPaths]) exO_sided exO_fits exParts exO_parts (hf _ exO_parts)
      ((buildBoolean (isIncluded .subject) .positive exConfig.st exConfig.sr exConfig.tree exConfig.scan exConfig.fuel
        (overlaySegments exParts.flatten [])).getD []) (by decide +kernel) (atMostTwo_of_mem (by decide +kernel)) 1 0 (1 / 2) 0 hgood _
        exO_result
  exact ⟨outer, holes, fun q hq => (h q hq).1⟩

open Classical in
/-- C77 applies to the square alone. -/
example : ∃ r, nodedEdges exOff.st exOff.sr exOff.tree exOff.fuel
      (outlineEdges exOutlineEnv exOStyle [exSquare.map gridC] (exSquare.map gridC)) = some r ∧
    ∃ (outer holes : List (List Pt)), OffsetContours true r outer holes ∧
      ∀ q, (∀ a b, OutlineSide (outlineAdapter exOutlineEnv exOStyle [exSquare.map gridC]).toInt exOStyle.join exOStyle.outerOffset
          (exSquare.map gridC) a b → ¬ NearLine (roundingError exOff 1 (1 / 2)) (fromGrid 1 0 q) a b) →
        SimplyAround exOStyle.outerOffset (exSquare.map gridC) (fromGrid 1 0 q) →
        polysWind (outer ++ holes) q = outerTurn true * (if OutlineCovers
          (outlineAdapter exOutlineEnv exOStyle [exSquare.map gridC]).toInt exOStyle.join exOStyle.outerOffset
          (exSquare.map gridC) (fromGrid 1 0 q) then 1 else 0) := by
  have hp := exO_path (ps := [exSquare.map gridC]) exSquare (by simp)
  have hr : nodedEdges exOff.st exOff.sr exOff.tree exOff.fuel
      (outlineEdges exOutlineEnv exOStyle [exSquare.map gridC] (exSquare.map gridC)) =
        some ((nodedEdges exOff.st exOff.sr exOff.tree exOff.fuel (intOps.pathEdges exOutline (exArea exSquare) exSquare)).getD []) := by
    rw [exO_edges exSquare (by simp)]
    decide +kernel
  have hgood : (outlineAdapter exOutlineEnv exOStyle [exSquare.map gridC]).Good 1 0 (1 / 2) 0
      (OutlineReached exOutlineEnv exOStyle [exSquare.map gridC]) := by
    have h := C74_rectangle exOutlineEnv exOStyle exOPaths _ 1 0 (1 / 2) 0 exO_good
    refine ⟨h.pos, fun z hz => h.toInt z ?_, h.toFloat⟩
    obtain ⟨path, hp, u, hu, hz⟩ := hz
    rw [List.mem_singleton.1 hp] at hu hz
    refine ⟨exSquare.map gridC, by simp [exOPaths], u, hu, ?_⟩
    rw [exO_area] at hz ⊢
    exact hz
  obtain ⟨outer, holes, _, -, h1, -, -, h2⟩ := C77_single exOutlineEnv exOff exConfig exRaw exOff_assumed exOStyle true 0
    (exSquare.map gridC) (by rw [exO_area]; decide) hp.toRegularPath (ringApart_grid exO_toInt (by decide))
    (roomFor_grid (d := 10) (by show |(10 : ℝ)| ≤ _; norm_num) (by decide) (by decide)) _ hr (hp.sides _ hr).2 1 0 (1 / 2) 0 hgood _
    exO_single
  exact ⟨_, hr, outer, holes, h1, fun q hq hS => (h2 q hq hS).1⟩

end IOverlay
