/-
Strokes with the styles of the API (mesh/style.rs, mesh/stroke/*.rs) in exact arithmetic: numbers are real, points are
complex numbers.

Simplification: the code computes in `f32` or `f64`; here every operation is exact. What is proved about these definitions
is how far from the path the registered points are meant to be; rounding to the integer grid is modelled (a parameter with
an error bound), floating point rounding before it is not.
-/
import Verif.Mesh
import Mathlib.Analysis.Complex.Basic
import Mathlib.Analysis.SpecialFunctions.Trigonometric.Inverse
import Mathlib.Analysis.SpecialFunctions.Complex.Log

namespace IOverlay
open Complex

/-- `LineCap`, mesh/style.rs:7-18. -/
inductive LineCap where
  | butt
  | round (angle : ℝ)
  | square
  | custom (points : List ℂ)

/-- `LineJoin`, mesh/style.rs:22-33. -/
inductive LineJoin where
  | bevel
  | miter (angle : ℝ)
  | round (angle : ℝ)

/-- `StrokeStyle`, mesh/style.rs:37-46. -/
structure StrokeStyle where
  width : ℝ
  startCap : LineCap
  endCap : LineCap
  join : LineJoin

/-- `f64::clamp`. -/
noncomputable def clampR (x lo hi : ℝ) : ℝ := max lo (min x hi)

/-- `LineCap::normalize`, mesh/style.rs:57-64. -/
noncomputable def LineCap.normalize : LineCap → LineCap
  | .round a => .round (clampR a (0.01 * Real.pi) (0.25 * Real.pi))
  | c => c

/-- `LineJoin::normalize`, mesh/style.rs:68-80. -/
noncomputable def LineJoin.normalize : LineJoin → LineJoin
  | .miter a => .miter (clampR a (0.01 * Real.pi) (0.99 * Real.pi))
  | .round a => .round (clampR a (0.01 * Real.pi) (0.25 * Real.pi))
  | .bevel => .bevel

/-- `StrokeStyle::default`, mesh/style.rs:116-124. -/
noncomputable def StrokeStyle.default : StrokeStyle := ⟨1, .butt, .butt, .bevel⟩

/-- `StrokeStyle::new`, mesh/style.rs:85-87. -/
noncomputable def StrokeStyle.new (width : ℝ) : StrokeStyle := { StrokeStyle.default with width := width }

/-- `StrokeStyle::width`, mesh/style.rs:90-93. -/
noncomputable def StrokeStyle.setWidth (s : StrokeStyle) (width : ℝ) : StrokeStyle := { s with width := max width 0 }

/-- `StrokeStyle::start_cap`, mesh/style.rs:96-99. -/
noncomputable def StrokeStyle.setStartCap (s : StrokeStyle) (c : LineCap) : StrokeStyle := { s with startCap := c.normalize }

/-- `StrokeStyle::end_cap`, mesh/style.rs:102-105. -/
noncomputable def StrokeStyle.setEndCap (s : StrokeStyle) (c : LineCap) : StrokeStyle := { s with endCap := c.normalize }

/-- `StrokeStyle::line_join`, mesh/style.rs:108-111. -/
noncomputable def StrokeStyle.setJoin (s : StrokeStyle) (j : LineJoin) : StrokeStyle := { s with join := j.normalize }

/-- The step angle of a round join, `RoundJoinBuilder::new`, mesh/stroke/builder_join.rs:225-226 (1 for the other joins, where
it is not used). -/
noncomputable def LineJoin.ratio : LineJoin → ℝ
  | .round a => min a (0.25 * Real.pi)
  | _ => 1

/-- The operations in exact arithmetic; `toInt` is the conversion to the grid, `ratio` the step angle of round joins.
`arcCount`, `arcRotator`: mesh/stroke/builder_join.rs:252-255, 267 (angle, rounded number of steps, step). -/
noncomputable def realOps (toInt : ℂ → Pt) (ratio : ℝ) : FloatOps ℝ ℂ where
  toInt := toInt
  fromXY x y := ⟨x, y⟩
  x p := p.re
  y p := p.im
  vAdd p q := p + q
  vSub p q := p - q
  vScale p s := p * s
  normalize p := p / ‖p‖
  dot p q := p.re * q.re + p.im * q.im
  cross p q := p.re * q.im - p.im * q.re
  add x y := x + y
  sub x y := x - y
  mul x y := x * y
  div x y := x / y
  neg x := -x
  abs x := |x|
  lt x y := decide (x < y)
  le x y := decide (x ≤ y)
  zero := 0
  eps := 0.0001
  arcCount dp := ⌊Real.arccos dp / ratio + 1 / 2⌋₊
  arcRotator cw dp :=
    let δ := Real.arccos dp / (⌊Real.arccos dp / ratio + 1 / 2⌋₊ : ℝ)
    if cw then (Real.cos (-δ), Real.sin (-δ)) else (Real.cos δ, Real.sin δ)

/-- The number of steps of a round cap, mesh/stroke/builder_cap.rs:34-39. -/
noncomputable def capSteps (angle : ℝ) : Nat :=
  if angle > 0 then max 2 (min ⌊Real.pi / angle⌋₊ 1024) else 1024

/-- `Rotator::with_angle(angle).rotate`, mesh/rotator.rs:29-34, 41-48. -/
noncomputable def rotateBy (angle : ℝ) (v : ℂ) : ℂ :=
  ⟨Real.cos angle * v.re + (-Real.sin angle) * v.im, Real.sin angle * v.re + Real.cos angle * v.im⟩

/-- The loop of `round_points`, mesh/stroke/builder_cap.rs:45-49. -/
noncomputable def capArc (angle r : ℝ) : Nat → ℂ → List ℂ
  | 0, _ => []
  | n + 1, v => (rotateBy angle v * r) :: capArc angle r n (rotateBy angle v)

/-- `CapBuilder::new`, mesh/stroke/builder_cap.rs:22-67. -/
noncomputable def LineCap.points (r : ℝ) : LineCap → CapPoints ℂ
  | .butt => none
  | .round a => some (capArc (Real.pi / capSteps a) r (capSteps a - 1) ⟨0, -1⟩)
  | .square => some [⟨r, -r⟩, ⟨r, r⟩]
  | .custom ps => some (ps.map fun p => p * r)

/-- `MiterJoinBuilder::new` and `RoundJoinBuilder::new`, mesh/stroke/builder_join.rs:95-115, 224-235. The flag `expand` is
that of outlines and not used. -/
noncomputable def LineJoin.build (r : ℝ) : LineJoin → Join ℝ
  | .bevel => .bevel
  | .miter a => .miter (-Real.cos (max a 0.01)) (r / Real.tan (0.5 * max a 0.01)) true
  | .round a => .round (Real.cos (min a (0.25 * Real.pi))) r true

/-- `StrokeBuilder::new`, mesh/stroke/builder.rs:39-44: the radius. -/
noncomputable def StrokeStyle.radius (s : StrokeStyle) : ℝ := 0.5 * max s.width 0

/-- `StrokeBuilder::new`, mesh/stroke/builder.rs:39-67. -/
noncomputable def StrokeStyle.params (s : StrokeStyle) : StrokeParams ℝ ℂ :=
  ⟨s.radius, s.join.normalize.build s.radius, s.startCap.normalize.points s.radius, s.endCap.normalize.points s.radius⟩

/-- `FloatRect` (external crate `i_float`). -/
structure FRect where
  minX : ℝ
  maxX : ℝ
  minY : ℝ
  maxY : ℝ

/-- `FloatRect::with_iter` (external). -/
noncomputable def rectOf : List ℂ → Option FRect
  | [] => none
  | p :: ps => some (ps.foldl (fun r p => ⟨min r.minX p.re, max r.maxX p.re, min r.minY p.im, max r.maxY p.im⟩)
      ⟨p.re, p.re, p.im, p.im⟩)

/-- `FloatRect::add_offset` (external). -/
noncomputable def FRect.addOffset (r : FRect) (a : ℝ) : FRect := ⟨r.minX - a, r.maxX + a, r.minY - a, r.maxY + a⟩

/-- `CapBuilder::additional_offset`, mesh/stroke/builder_cap.rs:112-122. -/
noncomputable def capOffset (c : CapPoints ℂ) : ℝ :=
  match c with
  | none => 0
  | some ps =>
    match rectOf ps with
    | none => 0
    | some r => (r.maxX - r.minX) + (r.maxY - r.minY)

/-- `JoinBuilder::additional_offset`, mesh/stroke/builder_join.rs:82-85, 105-106, 211-213, 295-298: `width2` is half the
width as given, `r` the radius. -/
noncomputable def LineJoin.offset (r width2 : ℝ) : LineJoin → ℝ
  | .bevel => 1.1 * width2
  | .miter a => 1.1 * Real.sqrt (r * r + (r / Real.tan (0.5 * max a 0.01)) * (r / Real.tan (0.5 * max a 0.01)))
  | .round _ => 1.1 * width2

/-- `Builder::additional_offset`, mesh/stroke/builder.rs:124-129, called with half the width (mesh/stroke/offset.rs:82-84). -/
noncomputable def StrokeStyle.offset (s : StrokeStyle) : ℝ :=
  max (s.join.normalize.offset s.radius (0.5 * s.width)) (max (capOffset s.params.startCap) (capOffset s.params.endCap))

/-- `FloatPointAdapter` (external crate `i_float`) as used by `stroke_custom`: `float_to_int`, `int_to_float`,
`len_float_to_int`. -/
structure StrokeAdapter where
  toInt : ℂ → Pt
  toFloat : Pt → ℂ
  lenToInt : ℝ → Int

/-- The external parts of a stroke: `FloatPointAdapter::new` and the floating point `simplify_contour`. -/
structure StrokeEnv where
  adapterOf : FRect → StrokeAdapter
  cleanFloat : StrokeAdapter → List (List (List ℂ)) → List (List (List ℂ))

/-- The rectangle given to the adapter, mesh/stroke/offset.rs:86-88. -/
noncomputable def strokeRect (s : StrokeStyle) (paths : List (List ℂ)) : FRect :=
  ((rectOf paths.flatten).getD ⟨0, 0, 0, 0⟩).addOffset s.offset

/-- `stroke_custom`, mesh/stroke/offset.rs:64-116. `clean` is `filter.clean_result`; the other fields of the filter are not
read by the code. `none`: panic or no termination within the fuel. -/
noncomputable def strokeCustom (e : StrokeEnv) (k : OffConfig) (x : Externals) (s : StrokeStyle) (closed cw clean : Bool)
    (paths : List (List ℂ)) : Option (List (List (List ℂ))) :=
  if paths.isEmpty then some []
  else
    let a := e.adapterOf (strokeRect s paths)
    let small := decide (|a.lenToInt (0.5 * s.width)| ≤ 1)
    if small then some []
    else
      ((realOps a.toInt s.join.normalize.ratio).stroke k x s.params small closed cw paths).map fun shapes =>
        let float := shapes.map fun sh => sh.map fun c => c.map a.toFloat
        if clean then e.cleanFloat a float else float

/-- `stroke`, mesh/stroke/offset.rs:55-62; the default filter cleans for `f32` only (`bits`, float/filter.rs:17-23). -/
noncomputable def strokeDefault (e : StrokeEnv) (k : OffConfig) (x : Externals) (s : StrokeStyle) (closed : Bool) (bits : Nat)
    (paths : List (List ℂ)) : Option (List (List (List ℂ))) :=
  strokeCustom e k x s closed false (decide (bits ≤ 32)) paths

end IOverlay
