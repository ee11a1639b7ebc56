/-
What a stroke consists of, in exact geometry: rectangles along the sections of the path, joins on the outer side of its corners,
and caps (specification for C76).
-/
import Verif.RealWind
import Verif.Props.StrokeShape

namespace IOverlay
open Complex

/-- The points a path runs through: for closed paths the last point comes before the first, which comes again at the end. -/
def route (closed : Bool) (path : List ℂ) : List ℂ :=
  if closed then path.getLast?.toList ++ path ++ path.head?.toList else path

/-- Half the width, to the left of the section from `u` to `v`. -/
noncomputable def halfLeft (r : ℝ) (u v : ℂ) : ℂ := I * unitTo u v * r

/-- The rectangle of a section, counterclockwise: half the width to either side. -/
noncomputable def sectionRect (r : ℝ) (u v : ℂ) : List ℂ :=
  [u - halfLeft r u v, v - halfLeft r u v, v + halfLeft r u v, u + halfLeft r u v]

open Classical in
/-- Where the outer side of the corner `u v w` begins, counterclockwise around `v`: on the right if the path turns left. -/
noncomputable def outerFrom (r : ℝ) (u v w : ℂ) : ℂ := if LeftTurn u v w then v - halfLeft r u v else v + halfLeft r v w

open Classical in
/-- Where it ends. -/
noncomputable def outerTo (r : ℝ) (u v w : ℂ) : ℂ := if LeftTurn u v w then v - halfLeft r v w else v + halfLeft r u v

open Classical in
/-- The inner side of the corner is drawn straight from here ... -/
noncomputable def innerFrom (r : ℝ) (u v w : ℂ) : ℂ := if LeftTurn u v w then v + halfLeft r v w else v - halfLeft r u v

open Classical in
/-- ... to here. -/
noncomputable def innerTo (r : ℝ) (u v w : ℂ) : ℂ := if LeftTurn u v w then v + halfLeft r u v else v - halfLeft r v w

open Classical in
/-- The outer side of the corner `u v w`, counterclockwise around `v`.
Bevel: straight. Round: an arc in equal steps, unless the path turns by less than the step angle. Miter: both sides prolonged up to
where they meet or, for corners sharper than the limit, by a limited length; straight if the turn is tiny or the points coincide on
the grid. -/
noncomputable def joinArc (toInt : ℂ → Pt) (s : StrokeStyle) (u v w : ℂ) : List ℂ :=
  let r := s.radius
  let p := outerFrom r u v w
  let q := outerTo r u v w
  let φ := turnAngle (unitTo u v) (unitTo v w)
  match s.join with
  | .bevel => [p, q]
  | .round a =>
    let A := clampR a (0.01 * Real.pi) (0.25 * Real.pi)
    if φ < A then [p, q] else arcPoints v (p - v) φ ⌊φ / A + 1 / 2⌋₊
  | .miter a =>
    let A := clampR a (0.01 * Real.pi) (0.99 * Real.pi)
    let e := if LeftTurn u v w then unitTo u v else -unitTo v w
    let e' := if LeftTurn u v w then unitTo v w else -unitTo u v
    if |(unitTo u v).re * (unitTo v w).im - (unitTo u v).im * (unitTo v w).re| < 0.0001 ∨ toInt p = toInt q then [p, q]
    else if Real.pi - φ < A then [p, p + e * (r / Real.tan (A / 2) : ℝ), q - e' * (r / Real.tan (A / 2) : ℝ), q]
    else
      let tip := p + e * (r * Real.tan (φ / 2) : ℝ)
      if toInt tip = toInt p ∨ toInt tip = toInt q then [p, q] else [p, tip, q]

/-- The cap at the end `v` of a path that arrives there in direction `d` (for the start of the path: the opposite of the direction
it leaves in), from its right to its left. -/
noncomputable def capShape (r : ℝ) (cap : LineCap) (v d : ℂ) : List ℂ :=
  match cap with
  | .butt => [v - I * d * r, v + I * d * r]
  | .square => [v - I * d * r, v - I * d * r + d * r, v + I * d * r + d * r, v + I * d * r]
  | .round a => arcPoints v (-(I * d) * r) Real.pi ⌊Real.pi / clampR a (0.01 * Real.pi) (0.25 * Real.pi)⌋₊
  | .custom ps => (v - I * d * r) :: ps.map (fun p : ℂ => v + d * (p * r)) ++ [v + I * d * r]

/-- The parts of a stroked path: the rectangles of its sections, the joins (with the corner itself), the caps. -/
inductive StrokePart (toInt : ℂ → Pt) (s : StrokeStyle) (closed : Bool) (path : List ℂ) : List ℂ → Prop
  | section {u v : ℂ} : [u, v] <:+: route closed path → StrokePart toInt s closed path (sectionRect s.radius u v)
  | join {u v w : ℂ} : [u, v, w] <:+: route closed path → StrokePart toInt s closed path (v :: joinArc toInt s u v w)
  | startCap {u v : ℂ} : closed = false → [u, v] <+: path →
      StrokePart toInt s closed path (capShape s.radius s.startCap u (-unitTo u v))
  | endCap {u v : ℂ} : closed = false → [u, v] <:+ path →
      StrokePart toInt s closed path (capShape s.radius s.endCap v (unitTo u v))

/-- The drawn sides of a stroked path: the two long sides of the rectangles; at the corners, the outer side and the straight
inner side; the caps. -/
inductive StrokeSide (toInt : ℂ → Pt) (s : StrokeStyle) (closed : Bool) (path : List ℂ) : ℂ → ℂ → Prop
  | right {u v : ℂ} : [u, v] <:+: route closed path →
      StrokeSide toInt s closed path (u - halfLeft s.radius u v) (v - halfLeft s.radius u v)
  | left {u v : ℂ} : [u, v] <:+: route closed path →
      StrokeSide toInt s closed path (v + halfLeft s.radius u v) (u + halfLeft s.radius u v)
  | outer {u v w a b : ℂ} : [u, v, w] <:+: route closed path → [a, b] <:+: joinArc toInt s u v w →
      StrokeSide toInt s closed path a b
  | inner {u v w : ℂ} : [u, v, w] <:+: route closed path →
      StrokeSide toInt s closed path (innerFrom s.radius u v w) (innerTo s.radius u v w)
  | startCap {u v a b : ℂ} : closed = false → [u, v] <+: path → [a, b] <:+: capShape s.radius s.startCap u (-unitTo u v) →
      StrokeSide toInt s closed path a b
  | endCap {u v a b : ℂ} : closed = false → [u, v] <:+ path → [a, b] <:+: capShape s.radius s.endCap v (unitTo u v) →
      StrokeSide toInt s closed path a b

/-- Every section is longer than half the width times the sine of the turn at either of its ends (in particular if it is longer
than half the width). -/
def LongSections (r : ℝ) (closed : Bool) (path : List ℂ) : Prop :=
  ∀ u v w, [u, v, w] <:+: route closed path →
    r * |(unitTo u v).re * (unitTo v w).im - (unitTo u v).im * (unitTo v w).re| < ‖v - u‖ ∧
    r * |(unitTo u v).re * (unitTo v w).im - (unitTo u v).im * (unitTo v w).re| < ‖w - v‖

/-- No two consecutive points of the path coincide on the grid (such points are skipped by the code). -/
def ApartOnGrid (toInt : ℂ → Pt) (closed : Bool) (path : List ℂ) : Prop :=
  ∀ u v, [u, v] <:+: route closed path → toInt u ≠ toInt v

end IOverlay
