/-
How far a stroke may reach: specification for C72.
-/
import Verif.Stroke
import Verif.MeshSpec
import Verif.Spec
import Mathlib.Analysis.Convex.Segment

namespace IOverlay
open Complex

/-- `z` is within `d` of the straight line between `u` and `v`. -/
def NearLine (d : ℝ) (z u v : ℂ) : Prop := ∃ w ∈ segment ℝ u v, ‖z - w‖ ≤ d

/-- How far the joins of a style may reach from a corner: half the width, except for miters, which are limited by the smallest
angle `a` that is not cut: half the width divided by the sine of `a / 2`. Angles are clamped to 0.01 π … 0.99 π. -/
noncomputable def LineJoin.reach (half : ℝ) : LineJoin → ℝ
  | .bevel => half
  | .miter a => half / Real.sin (clampR a (0.01 * Real.pi) (0.99 * Real.pi) / 2)
  | .round _ => half

/-- How far the caps of a style may reach from an end: half the width, except for square caps (the diagonal) and custom
caps (the farthest of the given points, in units of half the width). -/
noncomputable def LineCap.reach (half : ℝ) : LineCap → ℝ
  | .butt => half
  | .round _ => half
  | .square => Real.sqrt 2 * half
  | .custom ps => half * (ps.map fun p => ‖p‖).foldr max 1

/-- How far a stroke of this style may reach from its path. -/
noncomputable def StrokeStyle.reach (s : StrokeStyle) (closed : Bool) : ℝ :=
  if closed then s.join.reach s.radius
  else max (s.join.reach s.radius) (max (s.startCap.reach s.radius) (s.endCap.reach s.radius))

/-- The edges of a path: consecutive points and, for closed paths, the last and the first. -/
def PathEdge (closed : Bool) (path : List ℂ) (u v : ℂ) : Prop :=
  [u, v] <:+: path ∨ (closed = true ∧ path.getLast? = some u ∧ path.head? = some v)

/-- The grid of the adapter: coordinates are scaled by `s` around `c`. -/
noncomputable def toGrid (s : ℝ) (c z : ℂ) : ℂ := s * (z - c)

/-- The point of the plane at the given grid coordinates. -/
noncomputable def fromGrid (s : ℝ) (c : ℂ) (q : QPt) : ℂ := c + (⟨(q.x : ℝ), (q.y : ℝ)⟩ : ℂ) / s

/-- Contract of the conversion to the grid: every coordinate is moved by at most `ein` units (1/2 for exact rounding). -/
def GridOk (toInt : ℂ → Pt) (s : ℝ) (c : ℂ) (ein : ℝ) (z : ℂ) : Prop :=
  |((toInt z).x : ℝ) - (toGrid s c z).re| ≤ ein ∧ |((toInt z).y : ℝ) - (toGrid s c z).im| ≤ ein

end IOverlay
