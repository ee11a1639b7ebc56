/-
What an outline adds to (or takes from) the inside of a path, in exact geometry: bands along the edges of the path, joins at the
corners on the side of the offset, small triangles at the other corners (specification for C77).
-/
import Verif.StrokeParts
import Verif.Props.OutlineReach

namespace IOverlay
open Complex

/-- The points of a closed path in turn: the last but one and the last point, then all points, then the first point again. -/
def ringOf (path : List ℂ) : List ℂ := path.drop (path.length - 2) ++ path ++ path.take 1

/-- The offset `δ` to the right of the edge from `u` to `v` (outwards, for a counterclockwise path; a negative offset is to the
left). -/
noncomputable def outShift (δ : ℝ) (u v : ℂ) : ℂ := -halfLeft δ u v

/-- The sine of the turn at `v`: positive for left turns. -/
noncomputable def bend (u v w : ℂ) : ℝ := (unitTo u v).re * (unitTo v w).im - (unitTo u v).im * (unitTo v w).re

/-- The angle of the turn at `v`, between 0 and π. -/
noncomputable def bendAngle (u v w : ℂ) : ℝ := turnAngle (unitTo u v) (unitTo v w)

/-- The shifted edges move apart at `v`: the path does not turn right and is shifted to the right, or it turns right and is
shifted to the left. -/
def OuterCorner (δ : ℝ) (u v w : ℂ) : Prop := if 0 < δ then 0 ≤ bend u v w else bend u v w < 0

open Classical in
/-- The shape of a join, counterclockwise around `v`, between the sides with directions `e` and `e'` at distance `r` to the right
of `v`, which form the angle `φ`.
Bevel: straight. Round: an arc in equal steps, unless the angle is less than the step. Miter: both sides prolonged up to where
they meet or, for corners sharper than the limit, by a limited length; straight if the ends of the sides are `flat` or the tip is
`gone`. -/
noncomputable def cornerShape (j : LineJoin) (r φ : ℝ) (v e e' : ℂ) (flat : Prop) (gone : ℂ → Prop) : List ℂ :=
  let p := v - I * e * r
  let q := v - I * e' * r
  match j with
  | .bevel => [p, q]
  | .round a =>
    let A := clampR a (0.01 * Real.pi) (0.25 * Real.pi)
    if φ < A then [p, q] else arcPoints v (p - v) φ ⌊φ / A + 1 / 2⌋₊
  | .miter a =>
    let A := clampR a (0.01 * Real.pi) (0.99 * Real.pi)
    if flat then [p, q]
    else if Real.pi - φ < A then [p, p + e * (r / Real.tan (A / 2) : ℝ), q - e' * (r / Real.tan (A / 2) : ℝ), q]
    else
      let tip := p + e * (r * Real.tan (φ / 2) : ℝ)
      if gone tip then [p, q] else [p, tip, q]

open Classical in
/-- The join at the corner `v`, counterclockwise. A miter is straight if the ends of the sides are less than 2 units of the grid
apart, or if its tip falls on one of them. -/
noncomputable def cornerArc (toInt : ℂ → Pt) (j : LineJoin) (δ : ℝ) (u v w : ℂ) : List ℂ :=
  let a := toInt (v + outShift δ u v)
  let b := toInt (v + outShift δ v w)
  cornerShape j |δ| (bendAngle u v w) v (if 0 < δ then unitTo u v else -unitTo v w) (if 0 < δ then unitTo v w else -unitTo u v)
    (sqrDist a b < 4) (fun tip => toInt tip = a ∨ toInt tip = b)

open Classical in
/-- By how much the shifted edges are shortened at `v`, where they would intersect. -/
noncomputable def cutOff (δ : ℝ) (u v w : ℂ) : ℝ := if OuterCorner δ u v w then 0 else |δ| * Real.tan (bendAngle u v w / 2)

/-- The band between the edge from `u` to `v` and the shifted edge, counterclockwise; `t` and `w` are the points before and after. -/
noncomputable def edgeBand (δ : ℝ) (t u v w : ℂ) : List ℂ :=
  let a := u + outShift δ u v + unitTo u v * (cutOff δ t u v : ℝ)
  let b := v + outShift δ u v - unitTo u v * (cutOff δ u v w : ℝ)
  if 0 < δ then [a, b, v, u] else [u, v, b, a]

/-- Where the shifted edges intersect. -/
noncomputable def innerTip (δ : ℝ) (u v w : ℂ) : ℂ := v + outShift δ u v - unitTo u v * (|δ| * Real.tan (bendAngle u v w / 2) : ℝ)

/-- The triangle beyond the intersection of the shifted edges, which are drawn in full length, counterclockwise. -/
noncomputable def overshoot (δ : ℝ) (u v w : ℂ) : List ℂ :=
  if 0 < δ then [innerTip δ u v w, v + outShift δ u v, v + outShift δ v w]
  else [innerTip δ u v w, v + outShift δ v w, v + outShift δ u v]

/-- The parts of an outlined path: the bands along its edges, the joins where the shifted edges move apart (with the corner
itself), the triangles where they intersect. -/
inductive OutlinePart (toInt : ℂ → Pt) (j : LineJoin) (δ : ℝ) (path : List ℂ) : List ℂ → Prop
  | band {t u v w : ℂ} : [t, u, v, w] <:+: ringOf path → OutlinePart toInt j δ path (edgeBand δ t u v w)
  | join {u v w : ℂ} : [u, v, w] <:+: ringOf path → OuterCorner δ u v w →
      OutlinePart toInt j δ path (v :: cornerArc toInt j δ u v w)
  | over {u v w : ℂ} : [u, v, w] <:+: ringOf path → ¬ OuterCorner δ u v w → OutlinePart toInt j δ path (overshoot δ u v w)

/-- The drawn sides: the shifted edges and what joins them. -/
inductive OutlineSide (toInt : ℂ → Pt) (j : LineJoin) (δ : ℝ) (path : List ℂ) : ℂ → ℂ → Prop
  | along {u v : ℂ} : [u, v] <:+: ringOf path → OutlineSide toInt j δ path (u + outShift δ u v) (v + outShift δ u v)
  | outer {u v w a b : ℂ} : [u, v, w] <:+: ringOf path → OuterCorner δ u v w → [a, b] <:+: cornerArc toInt j δ u v w →
      OutlineSide toInt j δ path a b
  | inner {u v w : ℂ} : [u, v, w] <:+: ringOf path → ¬ OuterCorner δ u v w →
      OutlineSide toInt j δ path (v + outShift δ u v) (v + outShift δ v w)

/-- The offset fits the path: no edge is shorter than what the offset cuts off at its two ends, and the path does not fold back at
a corner where the shifted edges intersect. Always true for offsets outwards of a convex path. -/
structure RoomFor (δ : ℝ) (path : List ℂ) : Prop where
  long : ∀ t u v w, [t, u, v, w] <:+: ringOf path → cutOff δ t u v + cutOff δ u v w ≤ ‖v - u‖
  unfolded : ∀ u v w, [u, v, w] <:+: ringOf path → ¬ OuterCorner δ u v w → bendAngle u v w < Real.pi

/-- No two consecutive points coincide on the grid. -/
def RingApart (toInt : ℂ → Pt) (path : List ℂ) : Prop := ∀ u v, [u, v] <:+: ringOf path → toInt u ≠ toInt v

/-- What the outline of a counterclockwise path covers: outwards, its inside and all parts; inwards, its inside without the
parts. -/
def OutlineCovers (toInt : ℂ → Pt) (j : LineJoin) (δ : ℝ) (path : List ℂ) (z : ℂ) : Prop :=
  if 0 < δ then 0 < polyWindC path z ∨ ∃ P, OutlinePart toInt j δ path P ∧ polyWindC P z ≠ 0
  else 0 < polyWindC path z ∧ ¬ ∃ P, OutlinePart toInt j δ path P ∧ polyWindC P z ≠ 0

end IOverlay
