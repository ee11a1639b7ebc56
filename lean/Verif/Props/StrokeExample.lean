/-
A stroke meeting the hypotheses of C72.
-/
import Verif.Props.Stroke

namespace IOverlay
open Complex

/-- A point with integer coordinates. -/
noncomputable def gridC (p : Pt) : ℂ := ⟨(p.x : ℝ), (p.y : ℝ)⟩

/-- Rounding to the nearest integers, scale 1. -/
noncomputable def exStrokeEnv : StrokeEnv where
  adapterOf _ := ⟨fun z => ⟨round z.re, round z.im⟩, gridC, fun l => round l⟩
  cleanFloat _ l := l

/-- A path with one corner, 20 wide, with a square end. -/
noncomputable def exStyle : StrokeStyle := ((StrokeStyle.new 20).setEndCap .square).setJoin .bevel

noncomputable def exStrokePath : List ℂ := [gridC ⟨0, 0⟩, gridC ⟨100, 0⟩, gridC ⟨100, 100⟩]

noncomputable abbrev exOps : FloatOps ℝ ℂ := realOps (strokeAdapter exStrokeEnv exStyle [exStrokePath]).toInt
  exStyle.join.normalize.ratio

theorem exOps_toInt (p : Pt) : exOps.toInt (gridC p) = p := by
  show (⟨round ((p.x : Int) : ℝ), round ((p.y : Int) : ℝ)⟩ : Pt) = p
  rw [round_intCast, round_intCast]

theorem exStyle_radius : exStyle.radius = 10 := by
  show 0.5 * max 20 (0 : ℝ) = 10
  rw [max_eq_left (by norm_num)]; norm_num

theorem ex_section (a b d : Pt) (len : ℝ) (h : 0 < len) (e : gridC b - gridC a = gridC d * len) (hu : ‖gridC d‖ = 1) :
    exOps.section 10 (gridC a) (gridC b) =
      ⟨gridC a, gridC b, gridC ⟨a.x - 10 * d.y, a.y + 10 * d.x⟩, gridC ⟨b.x - 10 * d.y, b.y + 10 * d.x⟩,
        gridC ⟨a.x + 10 * d.y, a.y - 10 * d.x⟩, gridC ⟨b.x + 10 * d.y, b.y - 10 * d.x⟩, gridC d⟩ := by
  have hd0 : gridC d ≠ 0 := by intro h0; rw [h0] at hu; simp at hu
  have hne : gridC a ≠ gridC b := by
    intro h0
    rw [h0, sub_self] at e
    exact mul_ne_zero hd0 (by exact_mod_cast h.ne') e.symm
  have hd : (exOps.section 10 (gridC a) (gridC b)).dir = gridC d := by
    show (gridC b - gridC a) / ‖gridC b - gridC a‖ = gridC d
    rw [e, norm_mul, hu, one_mul, Complex.norm_real, Real.norm_of_nonneg h.le, mul_div_assoc, div_self, mul_one]
    exact_mod_cast h.ne'
  have hs := sect_real (toInt := (strokeAdapter exStrokeEnv exStyle [exStrokePath]).toInt)
    (ratio := exStyle.join.normalize.ratio) 10 hne
  have h1 := hs.aTop
  have h2 := hs.bTop
  have h3 := hs.aBot
  have h4 := hs.bBot
  rw [hd] at h1 h2 h3 h4
  rcases hq : exOps.section 10 (gridC a) (gridC b) with ⟨a', b', aT, bT, aB, bB, d'⟩
  rw [hq] at h1 h2 h3 h4 hd
  have ea : a' = gridC a := congrArg Section.a hq.symm
  have eb : b' = gridC b := congrArg Section.b hq.symm
  dsimp only at h1 h2 h3 h4 hd
  subst ea eb
  rw [h1, h2, h3, h4, hd]
  congr 1 <;> apply Complex.ext <;> simp [gridC] <;> ring

theorem ex_s0 : exOps.section 10 (gridC ⟨0, 0⟩) (gridC ⟨100, 0⟩) =
    ⟨gridC ⟨0, 0⟩, gridC ⟨100, 0⟩, gridC ⟨0, 10⟩, gridC ⟨100, 10⟩, gridC ⟨0, -10⟩, gridC ⟨100, -10⟩, gridC ⟨1, 0⟩⟩ :=
  ex_section ⟨0, 0⟩ ⟨100, 0⟩ ⟨1, 0⟩ 100 (by norm_num) (by apply Complex.ext <;> simp [gridC]) (by
    have : gridC ⟨1, 0⟩ = 1 := by apply Complex.ext <;> simp [gridC]
    rw [this, norm_one])

theorem ex_s1 : exOps.section 10 (gridC ⟨100, 0⟩) (gridC ⟨100, 100⟩) =
    ⟨gridC ⟨100, 0⟩, gridC ⟨100, 100⟩, gridC ⟨90, 0⟩, gridC ⟨90, 100⟩, gridC ⟨110, 0⟩, gridC ⟨110, 100⟩, gridC ⟨0, 1⟩⟩ :=
  ex_section ⟨100, 0⟩ ⟨100, 100⟩ ⟨0, 1⟩ 100 (by norm_num) (by apply Complex.ext <;> simp [gridC]) (by
    have : gridC ⟨0, 1⟩ = I := by apply Complex.ext <;> simp [gridC]
    rw [this, norm_I])

/-- The registered edges. -/
def exStrokeSegs : List (Seg CountOff) :=
  [boldAB ⟨0, 10⟩ ⟨0, -10⟩] ++ [boldAB ⟨100, 10⟩ ⟨0, 10⟩, boldAB ⟨0, -10⟩ ⟨100, -10⟩] ++
  (bevelEdge ⟨100, 10⟩ ⟨90, 0⟩ ++ bevelEdge ⟨110, 0⟩ ⟨100, -10⟩ ++ [boldAB ⟨90, 100⟩ ⟨90, 0⟩, boldAB ⟨110, 0⟩ ⟨110, 100⟩] ++ []) ++
  ([boldAB ⟨110, 100⟩ ⟨110, 110⟩, boldAB ⟨110, 110⟩ ⟨90, 110⟩] ++ [boldAB ⟨90, 110⟩ ⟨90, 100⟩])

theorem ex_edges : strokeEdges exStrokeEnv exStyle false [exStrokePath] = some exStrokeSegs := by
  show exOps.strokeSegments exStyle.params false [exStrokePath] = _
  have hp : exStyle.params = ⟨10, .bevel, none, some [gridC ⟨10, -10⟩, gridC ⟨10, 10⟩]⟩ := by
    unfold StrokeStyle.params
    rw [exStyle_radius]
    show StrokeParams.mk (10 : ℝ) Join.bevel none (some [(⟨10, -10⟩ : ℂ), ⟨10, 10⟩]) = _
    have e1 : (⟨10, -10⟩ : ℂ) = gridC ⟨10, -10⟩ := by apply Complex.ext <;> simp [gridC]
    have e2 : (⟨10, 10⟩ : ℂ) = gridC ⟨10, 10⟩ := by apply Complex.ext <;> simp [gridC]
    rw [e1, e2]
  rw [hp]
  have hrot : ∀ p : Pt, exOps.vAdd (exOps.rotate (exOps.x (gridC ⟨0, 1⟩)) (exOps.y (gridC ⟨0, 1⟩)) (gridC p)) (gridC ⟨100, 100⟩) =
      gridC ⟨100 - p.y, 100 + p.x⟩ := by
    intro p
    show exOps.rotate _ _ _ + _ = _
    rw [rotate_real]
    apply Complex.ext <;> simp [gridC, realOps] <;> ring
  simp only [FloatOps.strokeSegments, exStrokePath, Bool.false_eq_true, if_false, List.mapM_cons, List.mapM_nil,
    FloatOps.openSegments, FloatOps.skipEqual, exOps_toInt, FloatOps.sectionLoop, ex_s0, ex_s1,
    show ¬ ((⟨100, 0⟩ : Pt) = ⟨0, 0⟩) by decide, show ¬ ((⟨100, 100⟩ : Pt) = ⟨100, 0⟩) by decide,
    FloatOps.addToStart, FloatOps.addToEnd, FloatOps.addSection, FloatOps.addJoin, FloatOps.joinTop, FloatOps.joinBot,
    Option.getD_none, Option.getD_some, List.map_cons, List.map_nil, capLoop, hrot]
  rfl

/-- The stroke is regular. -/
theorem ex_regular : RegularStroke exStrokeEnv exOff exStyle false [exStrokePath] where
  edges segs h := by
    rw [ex_edges] at h
    obtain rfl := Option.some.inj h
    exact ⟨by decide +kernel, FragOk.list _ _⟩
  seam h := by cases h

/-- The integer contour of the stroke. -/
def exContour : List Pt :=
  [⟨0, 10⟩, ⟨0, -10⟩, ⟨100, -10⟩, ⟨110, 0⟩, ⟨110, 100⟩, ⟨110, 110⟩, ⟨90, 110⟩, ⟨90, 100⟩, ⟨90, 10⟩]

theorem ex_offset : offsetShapes exOff exRaw false 0 exStrokeSegs = some [[exContour]] := by
  decide +kernel

/-- The result of a stroke from its registered edges. -/
theorem strokeCustom_of (e : StrokeEnv) (k : OffConfig) (x : Externals) (s : StrokeStyle) (closed cw : Bool)
    (paths : List (List ℂ)) (segs : List (Seg CountOff)) (shapes : List (List (List Pt))) (h1 : paths.flatten.isEmpty = false)
    (h2 : decide (|(strokeAdapter e s paths).lenToInt (0.5 * s.width)| ≤ 1) = false)
    (h3 : strokeEdges e s closed paths = some segs) (h4 : offsetShapes k x cw 0 segs = some shapes) :
    strokeCustom e k x s closed cw false paths =
      some (shapes.map fun sh => sh.map fun c => c.map (strokeAdapter e s paths).toFloat) := by
  have h0 : paths.isEmpty = false := by cases paths <;> simp_all
  unfold strokeAdapter at h2 ⊢
  unfold strokeEdges strokeAdapter at h3
  unfold strokeCustom
  rw [if_neg (by simp [h0])]
  dsimp only
  rw [h2, if_neg (by simp)]
  unfold FloatOps.stroke
  rw [if_neg (by simp [h0]), if_neg (by simp [h1]), h3]
  dsimp only [Option.bind_some]
  rw [h4]
  rfl

/-- The result of the stroke. -/
theorem ex_result : strokeCustom exStrokeEnv exOff exRaw exStyle false false false [exStrokePath] =
    some [[exContour.map gridC]] := by
  refine strokeCustom_of exStrokeEnv exOff exRaw exStyle false false [exStrokePath] exStrokeSegs [[exContour]] rfl ?_ ex_edges
    ex_offset
  have hw : (0.5 * exStyle.width : ℝ) = ((10 : ℤ) : ℝ) := by
    have : exStyle.width = 20 := rfl
    rw [this]; norm_num
  rw [hw]
  have : (strokeAdapter exStrokeEnv exStyle [exStrokePath]).lenToInt ((10 : ℤ) : ℝ) = 10 := round_intCast 10
  rw [this]
  rfl

/-- The adapter keeps its contract on the rectangle of the stroke. -/
theorem ex_good : (strokeAdapter exStrokeEnv exStyle [exStrokePath]).Good 1 0 (1 / 2) 0 (strokeRect exStyle [exStrokePath]).Has where
  pos := one_pos
  toInt z hz := by
    have hrect : strokeRect exStyle [exStrokePath] = ⟨-20, 120, -20, 120⟩ := by
      have ho : exStyle.offset = 20 := by
        unfold StrokeStyle.offset StrokeStyle.params
        rw [exStyle_radius]
        show max (1.1 * (0.5 * 20 : ℝ)) (max 0 (capOffset (some [(⟨10, -10⟩ : ℂ), ⟨10, 10⟩]))) = 20
        simp only [capOffset, rectOf, List.foldl_cons, List.foldl_nil]
        norm_num
      unfold strokeRect
      rw [ho]
      simp only [exStrokePath, List.flatten_cons, List.flatten_nil, List.append_nil, rectOf, List.foldl_cons, List.foldl_nil,
        Option.getD_some, FRect.addOffset, gridC]
      norm_num
    rw [hrect] at hz
    obtain ⟨h1, h2, h3, h4⟩ := hz
    dsimp only at h1 h2 h3 h4
    have hg : toGrid 1 0 z = z := by unfold toGrid; simp
    have r1 := abs_sub_round z.re
    have r2 := abs_sub_round z.im
    refine ⟨⟨?_, ?_⟩, ?_⟩
    · rw [hg, abs_sub_comm]; exact r1
    · rw [hg, abs_sub_comm]; exact r2
    · rw [abs_le] at r1 r2
      have a1 : (-2 ^ 30 : ℝ) < (round z.re : ℝ) := by linarith
      have a2 : (round z.re : ℝ) < 2 ^ 30 := by linarith
      have a3 : (-2 ^ 30 : ℝ) < (round z.im : ℝ) := by linarith
      have a4 : (round z.im : ℝ) < 2 ^ 30 := by linarith
      exact ⟨by exact_mod_cast a1, by exact_mod_cast a2, by exact_mod_cast a3, by exact_mod_cast a4⟩
  toFloat p _ := by
    show ‖gridC p - fromGrid 1 0 p.q‖ ≤ 0
    have : gridC p = fromGrid 1 0 p.q := by unfold fromGrid gridC Pt.q; simp
    rw [this, sub_self, norm_zero]

/-- C72 applies: all edges of the stroke are within 10 √2 plus the rounding error of the path. -/
example : ∀ w ∈ cycleEdges (exContour.map gridC), ∀ z ∈ segment ℝ w.1 w.2,
    NearPath (Real.sqrt 2 * 10 + roundingError exOff 1 (1 / 2) + 0) false exStrokePath z := by
  intro w hw z hz
  have hreach : exStyle.reach false = Real.sqrt 2 * 10 := by
    unfold StrokeStyle.reach
    rw [exStyle_radius]
    show max (10 : ℝ) (max 10 (Real.sqrt 2 * 10)) = _
    have := sqrt_two_ge
    rw [max_eq_right (a := (10 : ℝ)) (b := Real.sqrt 2 * 10) (by linarith), max_eq_right (by linarith)]
  obtain ⟨path, hp, hn⟩ := C72_stroke_edges exStrokeEnv exOff exRaw exOff_assumed (Keeps.edges fun _ _ => rfl) exStyle false false [exStrokePath]
    ex_regular 1 0 (1 / 2) 0
    (C72_rectangle exStyle false (Or.inr ⟨trivial, trivial⟩) [exStrokePath] _ 1 0 (1 / 2) 0 ex_good) _ ex_result
    (exContour.map gridC) (by simp) w hw z hz
  rw [List.mem_singleton.1 hp, hreach] at hn
  exact hn

end IOverlay
