/-
Stand-alone specifications, independent of the model's algorithms: winding numbers of points of the
rational plane by ray casting, fill rules and overlay rules as plain predicates.
-/
import Verif.Geom
import Mathlib.Algebra.Order.Field.Rat
import Mathlib.Algebra.BigOperators.Group.List.Basic
import Mathlib.Tactic.FieldSimp
import Mathlib.Tactic.NormNum
import Mathlib.Tactic.Positivity

namespace IOverlay

/-- A point of the rational plane. -/
structure QPt where
  x : ℚ
  y : ℚ

/-- `q` lies strictly above the line through `u` and `v` (for `u.x < v.x`). -/
def aboveLine (u v : Pt) (q : QPt) : Prop :=
  ((v.y : ℚ) - u.y) * (q.x - u.x) < ((v.x : ℚ) - u.x) * (q.y - u.y)

/-- Contribution of the directed edge `u → v` to the winding number of `q`: the ray going straight
down from `q` crosses it from left to right (+1), from right to left (-1) or not at all (0).
Columns are half open, `[left, right)`, so that no vertex is counted twice. Counterclockwise
polygons get positive numbers. -/
noncomputable def edgeWind (u v : Pt) (q : QPt) : Int :=
  open Classical in
  if (u.x : ℚ) ≤ q.x ∧ q.x < v.x ∧ aboveLine u v q then 1
  else if (v.x : ℚ) ≤ q.x ∧ q.x < u.x ∧ aboveLine v u q then -1
  else 0

/-- An integer point as a rational one. -/
def Pt.q (p : Pt) : QPt := ⟨p.x, p.y⟩

/-- `p` is the point at parameter `t` of the segment from `a` to `b`. -/
def atParam (p : QPt) (a b : Pt) (t : ℚ) : Prop :=
  p.x = a.x + t * (b.x - a.x) ∧ p.y = a.y + t * (b.y - a.y)

/-- `p` lies on the closed segment `a b`. -/
def onSeg (p : QPt) (a b : Pt) : Prop := ∃ t : ℚ, 0 ≤ t ∧ t ≤ 1 ∧ atParam p a b t

/-- `p` lies strictly between the ends of the segment `a b`. -/
def inSeg (p : QPt) (a b : Pt) : Prop := ∃ t : ℚ, 0 < t ∧ t < 1 ∧ atParam p a b t

/-- Two segments meet properly: every common point is an end point of both. -/
def MeetAtEnds (a b c d : Pt) : Prop :=
  ∀ p : QPt, onSeg p a b → onSeg p c d → (p = a.q ∨ p = b.q) ∧ (p = c.q ∨ p = d.q)

/-- Directed edges of the closed polygon through the given points. -/
def polyEdges : List Pt → List (Pt × Pt)
  | [] => []
  | p :: ps => (p :: ps).zip (ps ++ [p])

/-- Winding number of `q` with respect to the closed polygon through `pts`. -/
noncomputable def polyWind (pts : List Pt) (q : QPt) : Int :=
  ((polyEdges pts).map fun e => edgeWind e.1 e.2 q).sum

/-- Winding number of `q` with respect to several polygons. -/
noncomputable def polysWind (cs : List (List Pt)) (q : QPt) : Int :=
  (cs.map fun c => polyWind c q).sum

/-- Fill rules as documented in core/fill_rule.rs:3-14. -/
inductive FillRule | evenOdd | nonZero | positive | negative
deriving DecidableEq, Repr

/-- Meaning of a fill rule: which winding numbers are inside. -/
def FillRule.inside : FillRule → Int → Bool
  | .evenOdd, w => w % 2 == 1
  | .nonZero, w => w != 0
  | .positive, w => decide (0 < w)
  | .negative, w => decide (w < 0)

/-- `OverlayRule`, core/overlay_rule.rs. -/
inductive OverlayRule
  | subject | clip | intersect | union | difference | inverseDifference | xor
deriving DecidableEq, Repr

/-- Meaning of an overlay rule as a boolean operation on "inside subject", "inside clip". -/
def OverlayRule.op : OverlayRule → Bool → Bool → Bool
  | .subject, s, _ => s
  | .clip, _, c => c
  | .intersect, s, c => s && c
  | .union, s, c => s || c
  | .difference, s, c => s && !c
  | .inverseDifference, s, c => c && !s
  | .xor, s, c => s != c

/-! ### orientation and nesting of contours -/

/-- Orientation of outer contours: -1 is clockwise (y upwards). -/
def outerTurn (clockwise : Bool) : Int := if clockwise then -1 else 1

/-- Winds around every point not at all or `d` times, and around some point `d` times. -/
def WindsOnce (d : Int) (c : List Pt) : Prop :=
  (∀ q, polyWind c q = 0 ∨ polyWind c q = d) ∧ ∃ q, polyWind c q = d

/-- The interiors are disjoint, or one is inside the other. -/
def Nested (c c' : List Pt) : Prop :=
  (∀ q, polyWind c q ≠ 0 → polyWind c' q = 0) ∨
  (∀ q, polyWind c q ≠ 0 → polyWind c' q ≠ 0) ∨
  (∀ q, polyWind c' q ≠ 0 → polyWind c q ≠ 0)

end IOverlay
