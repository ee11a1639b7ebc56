/-
Integer geometry used by the whole model (`i_float` contract) and the `XSegment`/`VSegment` orders.
-/
import Mathlib.Tactic.Linarith
import Mathlib.Tactic.Ring
import Mathlib.Tactic.LinearCombination

namespace IOverlay

/-- `i_float::int::point::IntPoint` (two `i32`, here unbounded integers; see C19 for the range
argument). Used everywhere, e.g. /repo/iOverlay/src/geom/x_segment.rs:6-10. -/
structure Pt where
  x : Int
  y : Int
deriving DecidableEq, Repr, Inhabited

/-- `IntPoint: Ord`, lexicographic (external crate `i_float`; relied upon e.g. in
segm/build.rs:83 `p0 < p1`). -/
def Pt.lt (p q : Pt) : Prop := p.x < q.x ∨ (p.x = q.x ∧ p.y < q.y)

instance : LT Pt := ⟨Pt.lt⟩
instance (p q : Pt) : Decidable (p < q) :=
  inferInstanceAs (Decidable (p.x < q.x ∨ (p.x = q.x ∧ p.y < q.y)))

theorem Pt.lt_def {p q : Pt} : p < q ↔ p.x < q.x ∨ (p.x = q.x ∧ p.y < q.y) := Iff.rfl

theorem Pt.ext_iff' {p q : Pt} : p = q ↔ p.x = q.x ∧ p.y = q.y := by
  cases p; cases q; simp

theorem Pt.lt_irrefl (p : Pt) : ¬ p < p := by rw [Pt.lt_def]; omega

theorem Pt.lt_trans {p q r : Pt} (h1 : p < q) (h2 : q < r) : p < r := by
  rw [Pt.lt_def] at *; omega

theorem Pt.lt_asymm {p q : Pt} (h1 : p < q) : ¬ q < p := by
  rw [Pt.lt_def] at *; omega

theorem Pt.lt_tri (p q : Pt) : p < q ∨ p = q ∨ q < p := by
  rw [Pt.lt_def, Pt.lt_def, Pt.ext_iff']; omega

theorem Pt.ne_of_lt {p q : Pt} (h : p < q) : p ≠ q := by
  rintro rfl; exact Pt.lt_irrefl _ h

theorem Pt.lt_of_not_lt_ne {p q : Pt} (h : ¬ p < q) (h' : p ≠ q) : q < p := by
  rcases Pt.lt_tri p q with h1 | h1 | h1
  · exact absurd h1 h
  · exact absurd h1 h'
  · exact h1

/-- `Triangle::area_two_point(p0, p1, p2) = (p1 - p0) × (p1 - p2)` (external crate `i_float`);
positive iff `p0 p1 p2` turn clockwise. -/
def area2 (p0 p1 p2 : Pt) : Int :=
  (p1.x - p0.x) * (p1.y - p2.y) - (p1.y - p0.y) * (p1.x - p2.x)

/-- `Triangle::is_line_point` (external). -/
def isLine (p0 p1 p2 : Pt) : Bool := area2 p0 p1 p2 == 0

/-- `Triangle::is_clockwise_point` (external). -/
def isClockwise (p0 p1 p2 : Pt) : Bool := decide (0 < area2 p0 p1 p2)

/-- `Triangle::clock_direction_point` = sign of the area (external). -/
def clockDir (p0 p1 p2 : Pt) : Int := (area2 p0 p1 p2).sign

/-- `Triangle::clock_order_point` = `0.cmp(&area)`: `Less` iff clockwise (external; the
unit test geom/v_segment.rs:91-98 fixes the sign). -/
def clockOrder (p0 p1 p2 : Pt) : Ordering := compare 0 (area2 p0 p1 p2)

/-- `IntPoint::sqr_distance` (external). -/
def sqrDist (p q : Pt) : Int := (p.x - q.x) * (p.x - q.x) + (p.y - q.y) * (p.y - q.y)

theorem isLine_iff {p0 p1 p2 : Pt} : isLine p0 p1 p2 = true ↔ area2 p0 p1 p2 = 0 := by
  simp [isLine]

theorem isClockwise_iff {p0 p1 p2 : Pt} : isClockwise p0 p1 p2 = true ↔ 0 < area2 p0 p1 p2 := by
  simp [isClockwise]

end IOverlay
