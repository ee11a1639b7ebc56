/-
The outline operation (mesh/outline/offset.rs), from the paths to the integer shapes.
-/
import Verif.Mesh

namespace IOverlay

/-- The two builders of an outline, mesh/outline/offset.rs:79-80: radius `-outer_offset` for outer contours,
`inner_offset` for holes, each with the join parameters computed from it (`OutlineBuilder::new`,
mesh/outline/builder.rs:35-56). -/
structure OutlineParams (T : Type) where
  outerRadius : T
  outerJoin : Join T
  innerRadius : T
  innerJoin : Join T

section
variable {T P : Type} (o : FloatOps T P)

/-- One path of several, mesh/outline/offset.rs:129-168: nothing for a degenerate path; the offset of an outer path;
the offset of a reversed hole with its contours reversed. `area` is `unsafe_int_area` for the adapter of the call
(external; negative for counterclockwise paths). -/
def FloatOps.outlinePart (k : OffConfig) (x : Externals) (area : List P → Int) (s : OutlineParams T) (path : List P) :
    Option (List (List Pt)) :=
  if (area path).natAbs ≤ 1 then some []
  else if area path < 0 then
    (offsetShapes k x false 0 (o.outlineSegments s.outerRadius s.outerJoin path)).map List.flatten
  else
    (offsetShapes k x false 0 (o.outlineSegments s.innerRadius s.innerJoin path.reverse)).map fun shapes =>
      shapes.flatten.map List.reverse

/-- `outline_custom`, mesh/outline/offset.rs:62-184, from the paths to the integer shapes; `minArea` is
`sqr_float_to_int(filter.min_area)` (line 99). The conversion of the result back to floating point and the optional
cleaning (lines 177-183) are not modelled. -/
def FloatOps.outline (k : OffConfig) (kb : Config) (x : Externals) (area : List P → Int) (s : OutlineParams T)
    (clockwise : Bool) (minArea : Nat) (paths : List (List P)) : Option (List (List (List Pt))) :=
  match paths with
  | [] => some []
  | [path] =>
    if -1 ≤ area path then some []
    else offsetShapes k x clockwise (max minArea 1) (o.outlineSegments s.outerRadius s.outerJoin path)
  | paths => (paths.mapM (o.outlinePart k x area s)).bind fun parts =>
    overlayCustom kb x .subject .positive clockwise (max minArea 1) (overlaySegments parts.flatten [])

end

end IOverlay
