/-
Outlines with the styles of the API (mesh/style.rs, mesh/outline/*.rs) in exact arithmetic: numbers are real, points are
complex numbers (as Stroke.lean for strokes).
-/
import Verif.Stroke
import Verif.Outline

namespace IOverlay
open Complex

/-- `OutlineStyle`, mesh/style.rs:49-53. -/
structure OutlineStyle where
  outerOffset : ℝ
  innerOffset : ℝ
  join : LineJoin

/-- `OutlineStyle::default`, mesh/style.rs:165-173. -/
noncomputable def OutlineStyle.default : OutlineStyle := ⟨1, 1, .bevel⟩

/-- `OutlineStyle::new`, mesh/style.rs:129-131. -/
noncomputable def OutlineStyle.new (offset : ℝ) : OutlineStyle :=
  { OutlineStyle.default with outerOffset := offset, innerOffset := offset }

/-- `OutlineStyle::offset`, mesh/style.rs:134-138. -/
def OutlineStyle.setOffset (s : OutlineStyle) (offset : ℝ) : OutlineStyle :=
  { s with outerOffset := offset, innerOffset := offset }

/-- `OutlineStyle::outer_offset`, mesh/style.rs:141-144. -/
def OutlineStyle.setOuter (s : OutlineStyle) (offset : ℝ) : OutlineStyle := { s with outerOffset := offset }

/-- `OutlineStyle::inner_offset`, mesh/style.rs:147-150. -/
def OutlineStyle.setInner (s : OutlineStyle) (offset : ℝ) : OutlineStyle := { s with innerOffset := offset }

/-- `OutlineStyle::line_join`, mesh/style.rs:153-156 (not normalized here but by `outline_custom`). -/
def OutlineStyle.setJoin (s : OutlineStyle) (j : LineJoin) : OutlineStyle := { s with join := j }

/-- `MiterJoinBuilder::new` and `RoundJoinBuilder::new`, mesh/outline/builder_join.rs:85-108, 196-215, for a radius of any
sign; the last component is `expand`. -/
noncomputable def LineJoin.oBuild (ρ : ℝ) : LineJoin → Join ℝ
  | .bevel => .bevel
  | .miter a => .miter (-Real.cos (max a 0.01)) (|ρ| / Real.tan (0.5 * max a 0.01)) (decide (0 ≤ ρ))
  | .round a => .round (Real.cos (min a (0.25 * Real.pi))) ρ (decide (0 ≤ ρ))

/-- The two builders of `outline_custom`, mesh/outline/offset.rs:77-80. -/
noncomputable def OutlineStyle.params (s : OutlineStyle) : OutlineParams ℝ :=
  ⟨-s.outerOffset, s.join.normalize.oBuild (-s.outerOffset), s.innerOffset, s.join.normalize.oBuild s.innerOffset⟩

/-- `JoinBuilder::additional_offset`, mesh/outline/builder_join.rs:70-74, 99-100, 180-183, 275-279: `radius` is the argument,
`ρ` the radius the builder was made for. -/
noncomputable def LineJoin.oOffset (ρ radius : ℝ) : LineJoin → ℝ
  | .bevel => 1.1 * radius
  | .miter a => 1.1 * Real.sqrt (|ρ| * |ρ| + (|ρ| / Real.tan (0.5 * max a 0.01)) * (|ρ| / Real.tan (0.5 * max a 0.01)))
  | .round _ => 1.1 * radius

/-- mesh/outline/offset.rs:83-89. -/
noncomputable def OutlineStyle.additional (s : OutlineStyle) : ℝ :=
  |s.join.normalize.oOffset (-s.outerOffset) s.outerOffset| + |s.join.normalize.oOffset s.innerOffset s.innerOffset|

/-- The rectangle given to the adapter, mesh/outline/offset.rs:91-95. -/
noncomputable def outlineRect (s : OutlineStyle) (paths : List (List ℂ)) : FRect :=
  ((rectOf paths.flatten).getD ⟨0, 0, 0, 0⟩).addOffset s.additional

/-- The external parts of an outline: `FloatPointAdapter::new`, `unsafe_int_area`, `sqr_float_to_int` and the floating point
`simplify_contour`. -/
structure OutlineEnv where
  adapterOf : FRect → StrokeAdapter
  area : StrokeAdapter → List ℂ → Int
  sqrToInt : StrokeAdapter → ℝ → Nat
  cleanFloat : StrokeAdapter → List (List (List ℂ)) → List (List (List ℂ))

/-- The adapter of an outline, mesh/outline/offset.rs:82-97. -/
noncomputable def outlineAdapter (e : OutlineEnv) (s : OutlineStyle) (paths : List (List ℂ)) : StrokeAdapter :=
  e.adapterOf (outlineRect s paths)

/-- The early returns of `outline_custom`, mesh/outline/offset.rs:104-114: no path, or a single one that is not
counterclockwise. -/
def outlineNothing (area : List ℂ → Int) (paths : List (List ℂ)) : Bool :=
  match paths with
  | [] => true
  | [path] => decide (-1 ≤ area path)
  | _ => false

/-- `outline_custom`, mesh/outline/offset.rs:62-184; `minArea`, `clean` are the fields `min_area`, `clean_result` of the filter
(the third is not read). `none`: no termination within the fuel. -/
noncomputable def outlineCustom (e : OutlineEnv) (k : OffConfig) (kb : Config) (x : Externals) (s : OutlineStyle)
    (cw : Bool) (minArea : ℝ) (clean : Bool) (paths : List (List ℂ)) : Option (List (List (List ℂ))) :=
  let a := outlineAdapter e s paths
  if outlineNothing (e.area a) paths then some []
  else
    ((realOps a.toInt s.join.normalize.ratio).outline k kb x (e.area a) s.params cw (e.sqrToInt a minArea) paths).map
      fun shapes =>
        let float := shapes.map fun sh => sh.map fun c => c.map a.toFloat
        if clean then e.cleanFloat a float else float

/-- `outline`, mesh/outline/offset.rs:54-60: counterclockwise, with the default filter (float/filter.rs:17-23: no minimum area,
cleaning for `f32` only). -/
noncomputable def outlineDefault (e : OutlineEnv) (k : OffConfig) (kb : Config) (x : Externals) (s : OutlineStyle) (bits : Nat)
    (paths : List (List ℂ)) : Option (List (List (List ℂ))) :=
  outlineCustom e k kb x s false 0 (decide (bits ≤ 32)) paths

end IOverlay
