/-
What strokes and outlines consist of: rectangles along the sections of the path, joints and caps; shifted contours.
Used to state C51.
-/
import Verif.Mesh

namespace IOverlay
variable {T P : Type} (o : FloatOps T P)

/-- The point at parameter `k` of the line through `a` in direction `v`. -/
def FloatOps.ahead (a v : P) (k : T) : P :=
  o.fromXY (o.add (o.x a) (o.mul k (o.x v))) (o.add (o.y a) (o.mul k (o.y v)))

/-- The point at parameter `-k` of the line through `a` in direction `v`. -/
def FloatOps.behind (a v : P) (k : T) : P :=
  o.fromXY (o.sub (o.x a) (o.mul k (o.x v))) (o.sub (o.y a) (o.mul k (o.y v)))

/-- The tip of a miter between the line through `pa` in direction `va` and the line through `pb` in direction `vb`: the
parameter is that of `pb - pa` as a multiple of `va + vb`, from the larger coordinate. -/
def FloatOps.miterTip (pa pb va vb : P) : P :=
  o.ahead pa va
    (if o.lt (o.abs (o.add (o.y va) (o.y vb))) (o.abs (o.add (o.x va) (o.x vb))) then
      o.div (o.sub (o.x pb) (o.x pa)) (o.add (o.x va) (o.x vb))
    else o.div (o.sub (o.y pb) (o.y pa)) (o.add (o.y va) (o.y vb)))

/-- The integer image of the point of an arc reached from direction `v` after `n` steps. -/
def FloatOps.arcPoint (rot : T × T) (center v : P) (radius : T) (n : Nat) : Pt :=
  o.toInt (o.vAdd center (o.vScale ((o.rotate rot.1 rot.2)^[n] v) radius))

/-- The inner points of an arc of `n` steps. -/
def FloatOps.arc (rot : T × T) (center v : P) (radius : T) (n : Nat) : List Pt :=
  (List.range (n - 1)).map fun i => o.arcPoint rot center v radius (i + 1)

/-- The extra points of a miter between `pa` and `pb`: none if these coincide on the grid; otherwise the two points `a1`,
`b1` if the miter is limited, or the tip if it does not coincide with `pa` or `pb`. -/
def FloatOps.miterPoints (limited : Bool) (pa pb a1 b1 tip : P) : List Pt :=
  if o.toInt pa = o.toInt pb then []
  else if limited then [o.toInt a1, o.toInt b1]
  else if o.toInt pa = o.toInt tip ∨ o.toInt pb = o.toInt tip then []
  else [o.toInt tip]

/-- The extra points of a join, all on the outer side of the turn: none for a bevel; for a miter the two sides prolonged
by `maxLength` if the path turns sharper than the limit, else the tip; for a round join the points of the arc around
the common end. -/
def Join.Extra (j : Join T) (s0 s1 : Section P) (top bot : List Pt) : Prop :=
  match j with
  | .bevel => top = [] ∧ bot = []
  | .miter limitDot maxLength _ =>
    if o.lt (o.abs (o.cross s0.dir s1.dir)) o.eps then top = [] ∧ bot = []
    else if o.lt o.zero (o.cross s0.dir s1.dir) then
      top = [] ∧ bot = (o.miterPoints (o.lt (o.dot s0.dir s1.dir) limitDot) s1.aBot s0.bBot
        (o.behind s1.aBot s1.dir maxLength) (o.ahead s0.bBot s0.dir maxLength)
        (o.miterTip s1.aBot s0.bBot s1.dir s0.dir)).reverse
    else
      bot = [] ∧ top = (o.miterPoints (o.lt (o.dot s0.dir s1.dir) limitDot) s0.bTop s1.aTop
        (o.ahead s0.bTop s0.dir maxLength) (o.behind s1.aTop s1.dir maxLength)
        (o.miterTip s0.bTop s1.aTop s0.dir s1.dir)).reverse
  | .round limitDot radius _ =>
    let dp := o.dot s0.dir s1.dir
    if o.lt limitDot dp then top = [] ∧ bot = []
    else if o.lt o.zero (o.cross s0.dir s1.dir) then
      top = [] ∧ bot = (o.arc (o.arcRotator true dp) s0.b (o.fromXY (o.y s1.dir) (o.neg (o.x s1.dir))) radius
        (o.arcCount dp)).reverse
    else
      bot = [] ∧ top = (o.arc (o.arcRotator true dp) s0.b (o.fromXY (o.neg (o.y s0.dir)) (o.x s0.dir)) radius
        (o.arcCount dp)).reverse

/-- Only the outer side of a turn has extra points: the bottom (right) side if the path turns left. -/
def OuterSide (s0 s1 : Section P) (top bot : List Pt) : Prop :=
  if o.lt o.zero (o.cross s0.dir s1.dir) then top = [] else bot = []

/-- The rectangle of a section, counterclockwise. -/
def FloatOps.quad (s : Section P) : List Pt := [o.toInt s.aBot, o.toInt s.bBot, o.toInt s.bTop, o.toInt s.aTop]

/-- The piece between two sections: from the end of `s0` (bottom) along `bot` to the start of `s1`, back over its
top along `top`. -/
def FloatOps.joint (s0 s1 : Section P) (top bot : List Pt) : List Pt :=
  o.toInt s0.bBot :: bot ++ o.toInt s1.aBot :: o.toInt s1.aTop :: top ++ [o.toInt s0.bTop]

/-- The piece of the start cap. -/
def FloatOps.startPiece (cap : CapPoints P) (s : Section P) : List Pt :=
  o.toInt s.aTop :: ((cap.getD []).map fun p =>
    o.toInt (o.vAdd (o.rotate (o.neg (o.x s.dir)) (o.neg (o.y s.dir)) p) s.a)) ++ [o.toInt s.aBot]

/-- The piece of the end cap. -/
def FloatOps.endPiece (cap : CapPoints P) (s : Section P) : List Pt :=
  o.toInt s.bBot :: ((cap.getD []).map fun p =>
    o.toInt (o.vAdd (o.rotate (o.x s.dir) (o.y s.dir) p) s.b)) ++ [o.toInt s.bTop]

/-- The pieces of consecutive sections: their rectangles and the joints between them. -/
inductive Pieces (j : Join T) : List (Section P) → List (List Pt) → Prop
  | one (s : Section P) : Pieces j [s] [o.quad s]
  | cons {s0 s1 : Section P} {ss : List (Section P)} {cs : List (List Pt)} {top bot : List Pt} :
      OuterSide o s0 s1 top bot → j.Extra o s0 s1 top bot → Pieces j (s1 :: ss) cs →
      Pieces j (s0 :: s1 :: ss) (o.quad s0 :: o.joint s0 s1 top bot :: cs)

/-- The points of a path without those that coincide on the integer grid with the previous point; `ip` is the
grid point before the path. -/
def FloatOps.dedupFrom (ip : Pt) : List P → List P
  | [] => []
  | p :: rest => if o.toInt p = ip then dedupFrom ip rest else p :: dedupFrom (o.toInt p) rest

/-- The sections from `p` through the given points. -/
def FloatOps.sectionsFrom (radius : T) (p : P) : List P → List (Section P)
  | [] => []
  | q :: rest => o.section radius p q :: sectionsFrom radius q rest

/-- The sections of a closed path: from the last point around. -/
def FloatOps.closedSections (radius : T) (path : List P) : List (Section P) :=
  match path.getLast? with
  | none => []
  | some last => o.sectionsFrom radius last (o.dedupFrom (o.toInt last) path)

/-- The extra points of a join of an outline: none for a bevel, nor where the contour turns to the side requested by
`expand`, nor where the turn is too small; otherwise, for a miter, the two sides prolonged by `maxLength` if the contour
turns sharper than the limit, else the tip; for a round join the points of the arc around the common end. -/
def Join.OExtra (j : Join T) (s0 s1 : OSection P) (ps : List Pt) : Prop :=
  match j with
  | .bevel => ps = []
  | .miter limitDot maxLength expand =>
    if o.le o.zero (o.cross s0.dir s1.dir) = expand then ps = []
    else if sqrDist (o.toInt s0.bTop) (o.toInt s1.aTop) < 4 then ps = []
    else ps = o.miterPoints (o.lt (o.dot s0.dir s1.dir) limitDot) s0.bTop s1.aTop (o.ahead s0.bTop s0.dir maxLength)
      (o.behind s1.aTop s1.dir maxLength) (o.miterTip s0.bTop s1.aTop s0.dir s1.dir)
  | .round limitDot radius expand =>
    let dp := o.dot s0.dir s1.dir
    if o.le o.zero (o.cross s0.dir s1.dir) = expand then ps = []
    else if o.lt limitDot dp then ps = []
    else ps = o.arc (o.arcRotator expand dp) s0.b (o.fromXY (o.neg (o.y s0.dir)) (o.x s0.dir)) radius (o.arcCount dp)

/-- The shifted contour: the two ends of every section, and the extra points of the join after it; `z` is the
section after the last one. -/
inductive Shifted (j : Join T) (z : OSection P) : List (OSection P) → List Pt → Prop
  | one (s : OSection P) {ps : List Pt} : j.OExtra o s z ps →
      Shifted j z [s] (o.toInt s.aTop :: o.toInt s.bTop :: ps)
  | cons (s s1 : OSection P) {ss : List (OSection P)} {ps c : List Pt} : j.OExtra o s s1 ps → Shifted j z (s1 :: ss) c →
      Shifted j z (s :: s1 :: ss) (o.toInt s.aTop :: o.toInt s.bTop :: ps ++ c)

/-- The sections from `p` through the given points. -/
def FloatOps.oSectionsFrom (radius : T) (p : P) : List P → List (OSection P)
  | [] => []
  | q :: rest => o.oSection radius p q :: oSectionsFrom radius q rest

/-- The sections of a contour: from the last point around. -/
def FloatOps.oClosedSections (radius : T) (path : List P) : List (OSection P) :=
  match path.getLast? with
  | none => []
  | some last => o.oSectionsFrom radius last (o.dedupFrom (o.toInt last) path)

/-- The pieces of one path of a stroke. An open path: the rectangles of its sections, the joints and the two caps;
nothing if all its points coincide on the grid. A closed path: the rectangles of its sections and the joints, the
last one closing the path. -/
def StrokePieces (s : StrokeParams T P) (closed : Bool) (path : List P) (pieces : List (List Pt)) : Prop :=
  if closed then
    (o.closedSections s.radius path = [] ∧ pieces = []) ∨
    ∃ first last cs top bot, (o.closedSections s.radius path).head? = some first ∧
      (o.closedSections s.radius path).getLast? = some last ∧ Pieces o s.join (o.closedSections s.radius path) cs ∧
      OuterSide o last first top bot ∧ s.join.Extra o last first top bot ∧ pieces = cs ++ [o.joint last first top bot]
  else
    ∃ p0 rest, path = p0 :: rest ∧ rest ≠ [] ∧
      ((o.sectionsFrom s.radius p0 (o.dedupFrom (o.toInt p0) rest) = [] ∧ pieces = []) ∨
      ∃ first last cs, (o.sectionsFrom s.radius p0 (o.dedupFrom (o.toInt p0) rest)).head? = some first ∧
        (o.sectionsFrom s.radius p0 (o.dedupFrom (o.toInt p0) rest)).getLast? = some last ∧
        Pieces o s.join (o.sectionsFrom s.radius p0 (o.dedupFrom (o.toInt p0) rest)) cs ∧
        pieces = o.startPiece s.startCap first :: cs ++ [o.endPiece s.endCap last])

/-- The shifted contour of an outlined path; none if all its points coincide on the grid. -/
def OutlinePieces (radius : T) (j : Join T) (path : List P) (pieces : List (List Pt)) : Prop :=
  (o.oClosedSections radius path = [] ∧ pieces = []) ∨
  ∃ first c, (o.oClosedSections radius path).head? = some first ∧
    Shifted o j first (o.oClosedSections radius path) c ∧ pieces = [c]

/-- An edge between two points, in either direction. -/
def Joins (e : Seg CountOff) (p q : Pt) : Prop := (e.a = p ∧ e.b = q) ∨ (e.a = q ∧ e.b = p)

/-- Every edge of `l` joins the ends of one of the given steps. -/
def EdgesOf (ds : List (Pt × Pt)) (l : List (Seg CountOff)) : Prop := ∀ e ∈ l, ∃ d ∈ ds, Joins e d.1 d.2

/-- The marks of the edges of a join: nothing, a single chord that is not marked as part of a side (bold), or edges all
marked as part of a side; the latter only for miter and round joins, where the contour turns to the side opposite to
the one requested by `expand`. -/
def Join.Marks (j : Join T) (s0 s1 : OSection P) (es : List (Seg CountOff)) : Prop :=
  (es = [] ∨ ∃ e, es = [e] ∧ e.c.bold = false ∧ Joins e (o.toInt s0.bTop) (o.toInt s1.aTop)) ∨
  ((∀ e ∈ es, e.c.bold = true) ∧
    match j with
    | .bevel => False
    | .miter _ _ expand => o.le o.zero (o.cross s0.dir s1.dir) ≠ expand
    | .round _ _ expand => o.le o.zero (o.cross s0.dir s1.dir) ≠ expand)

/-- The registered edges of an outline: the side of every section, marked (bold), followed by the edges of its join. -/
inductive Marked (j : Join T) (z : OSection P) : List (OSection P) → List (Seg CountOff) → Prop
  | one (s : OSection P) (e : Seg CountOff) {es : List (Seg CountOff)} : e.c.bold = true →
      Joins e (o.toInt s.aTop) (o.toInt s.bTop) → j.Marks o s z es → Marked j z [s] (e :: es)
  | cons (s s1 : OSection P) {ss : List (OSection P)} (e : Seg CountOff) {es l : List (Seg CountOff)} : e.c.bold = true →
      Joins e (o.toInt s.aTop) (o.toInt s.bTop) → j.Marks o s s1 es → Marked j z (s1 :: ss) l →
      Marked j z (s :: s1 :: ss) (e :: es ++ l)

end IOverlay
