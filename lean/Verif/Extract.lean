/-
Extraction of contours from the graph (core/extract.rs, core/nearest_vector.rs).
-/
import Verif.Graph
import Mathlib.Algebra.BigOperators.Group.List.Basic

namespace IOverlay

/-- `FixVec` (external crate `i_float`), result of `IntPoint::subtract`. -/
structure Vec where
  x : Int
  y : Int
deriving DecidableEq, Repr

/-- `IntPoint::subtract` (external): `a.subtract(c) = a - c`. -/
def Pt.sub (a c : Pt) : Vec := ⟨a.x - c.x, a.y - c.y⟩

/-- `FixVec::cross_product` (external); the sign is fixed by the tests core/nearest_vector.rs:50-61. -/
def Vec.cross (u v : Vec) : Int := u.x * v.y - u.y * v.x

/-- `NearestVector`, core/nearest_vector.rs:4-11. -/
structure NearestVector where
  c : Pt
  va : Vec
  vb : Vec
  abMore180 : Bool
  bestId : Nat
  rotationFactor : Int
deriving DecidableEq, Repr

/-- `NearestVector::new`, core/nearest_vector.rs:14-24. -/
def NearestVector.new (c a b : Pt) (bestId : Nat) (clockwise : Bool) : NearestVector :=
  let va := a.sub c
  let vb := b.sub c
  if clockwise then ⟨c, va, vb, decide (va.cross vb ≥ 0), bestId, 1⟩
  else ⟨c, va, vb, decide (va.cross vb ≤ 0), bestId, -1⟩

/-- `NearestVector::add`, core/nearest_vector.rs:26-41. -/
def NearestVector.add (s : NearestVector) (p : Pt) (id : Nat) : NearestVector :=
  let vp := p.sub s.c
  let apMore180 := decide (s.va.cross vp * s.rotationFactor ≥ 0)
  if s.abMore180 = apMore180 then
    if vp.cross s.vb * s.rotationFactor < 0 then { s with vb := vp, bestId := id } else s
  else if s.abMore180 then { s with abMore180 := false, vb := vp, bestId := id }
  else s

/-- `Visit::is_visited`, core/extract.rs:364-379 (indices are in range in every call; a missing entry
counts as visited). -/
def isVisited (vis : List Bool) (i : Nat) : Bool := vis.getD i true

/-- `Visit::visit`, core/extract.rs:376-378. -/
def visit (vis : List Bool) (i : Nat) : List Bool := vis.set i true

/-- `add` of the remaining candidates, core/extract.rs:216-225 (the list is already restricted to the
unvisited ones). `none`: index out of range. -/
def addVectors (g : Graph) (node : Nat) : List Nat → NearestVector → Option NearestVector
  | [], s => some s
  | i :: is, s => (g.links[i]?).bind fun l => addVectors g node is (s.add (l.other node) i)

/-- `find_nearest_link_to`, core/extract.rs:175-228. The first loop (lines 188-199) finds the first two
unvisited indices; with fewer than two, `first_index` (initially 0) is returned. -/
def findNearest (g : Graph) (target node : Nat) (clockwise : Bool) (indices : List Nat) (vis : List Bool) :
    Option Nat :=
  match indices.filter fun i => !isVisited vis i with
  | [] => some 0
  | [x] => some x
  | x :: rest =>
    (g.links[target]?).bind fun t =>
      let ca := if t.aId = node then (t.a, t.b) else (t.b, t.a)
      (g.links[x]?).bind fun lx =>
        (addVectors g node rest (NearestVector.new ca.1 ca.2 (lx.other node) x clockwise)).map (·.bestId)

/-- Choice of the next link, core/extract.rs:146-158. -/
def nextLink (g : Graph) (link node : Nat) (clockwise : Bool) (vis : List Bool) : Option Nat :=
  (g.nodes[node]?).bind fun nd =>
    match nd with
    | .bridge i j => some (if i = link then j else i)
    | .cross indices => findNearest g link node clockwise indices vis

/-- The loop of `get_contour`, core/extract.rs:144-170. `none`: not finished within the given number of
steps, or an index out of range. -/
def walk (g : Graph) (clockwise : Bool) (last : Nat) :
    Nat → Nat → Nat → List Bool → List Pt → Option (List Pt × List Bool)
  | fuel, node, link, vis, contour =>
    if node = last then some (contour, vis)
    else
      match fuel with
      | 0 => none
      | fuel + 1 =>
        (nextLink g link node clockwise vis).bind fun link' =>
          (g.links[link']?).bind fun l =>
            if l.aId = node then walk g clockwise last fuel l.bId link' (visit vis link') (contour ++ [l.a])
            else walk g clockwise last fuel l.aId link' (visit vis link') (contour ++ [l.b])

/-- `StartPathData`, core/extract.rs:302-307. -/
structure StartPath where
  begin : Pt
  node : Nat
  link : Nat
  last : Nat
deriving DecidableEq, Repr

/-- `StartPathData::new`, core/extract.rs:309-328. -/
def StartPath.new (direction : Bool) (l : Link) (id : Nat) : StartPath :=
  if direction then ⟨l.b, l.aId, id, l.bId⟩ else ⟨l.a, l.bId, id, l.aId⟩

/-- `get_contour`, core/extract.rs:129-173. -/
def getContour (g : Graph) (fuel : Nat) (s : StartPath) (clockwise : Bool) (vis : List Bool) :
    Option (List Pt × List Bool) :=
  walk g clockwise s.last fuel s.node s.link (visit vis s.link) [s.begin]

/-- `find_left_top_link_on_bridge`, core/extract.rs:280-289. -/
def leftTopBridge (g : Graph) (i j : Nat) : Option Nat :=
  (g.links[i]?).bind fun l0 => (g.links[j]?).bind fun l1 =>
    some (if isClockwise l0.a l0.b l1.b then i else j)

/-- The loop of `find_left_top_link_on_indices`, core/extract.rs:245-278. -/
def leftTopIndices (g : Graph) (linkIndex : Nat) (vis : List Bool) : List Nat → Nat → Link → Option Nat
  | [], top, _ => some top
  | i :: is, top, topLink =>
    if i = linkIndex then leftTopIndices g linkIndex vis is top topLink
    else (g.links[i]?).bind fun l =>
      if !l.isDirect || isClockwise topLink.a topLink.b l.b then leftTopIndices g linkIndex vis is top topLink
      else if isVisited vis i then leftTopIndices g linkIndex vis is top topLink
      else leftTopIndices g linkIndex vis is i l

/-- `find_left_top_link`, core/extract.rs:230-243. -/
def findLeftTop (g : Graph) (linkIndex : Nat) (vis : List Bool) : Option Nat :=
  (g.links[linkIndex]?).bind fun top =>
    (g.nodes[top.aId]?).bind fun nd =>
      match nd with
      | .bridge i j => leftTopBridge g i j
      | .cross indices => leftTopIndices g linkIndex vis indices linkIndex top

/-- `unsafe_area` (external crate `i_shape`): twice the signed area by the shoelace formula. Only its
absolute value is used here. -/
def doubleArea (c : List Pt) : Int :=
  match c with
  | [] => 0
  | p :: ps => (((p :: ps).zip (ps ++ [p])).map fun e => e.1.x * e.2.y - e.1.y * e.2.x).sum

/-- `Validate::validate`, core/extract.rs:334-356: valid, modified, cleaned contour. `clean` is
`simplify_contour` or `dedup_contour` (external crate `i_shape`, a parameter of the model): the new
contour and whether it was modified. -/
def validate (clean : List Pt → List Pt × Bool) (minArea : Nat) (c : List Pt) : Bool × Bool × List Pt :=
  let r := clean c
  if r.1.length < 3 then (false, r.2, r.1)
  else if minArea = 0 then (true, r.2, r.1)
  else (decide (minArea ≤ (doubleArea r.1).natAbs / 2), r.2, r.1)

/-- `VSegment::is_under_segment`, geom/v_segment.rs:32-45. -/
def isUnderSegment (s o : Pt × Pt) : Bool :=
  if s.1 < o.1 then isClockwise s.1 o.1 s.2
  else if s.1 = o.1 then isClockwise s.1 o.2 s.2
  else isClockwise o.1 o.2 s.1

/-- Index and value of the first smallest point (loop of `left_bottom_segment`,
bind/solver.rs:207-214). -/
def minIndex (c : List Pt) : Option (Nat × Pt) :=
  match c with
  | [] => none
  | p :: ps => some ((ps.zipIdx 1).foldl (fun m x => if x.1 < m.2 then (x.2, x.1) else m) (0, p))

/-- `left_bottom_segment`, bind/solver.rs:205-224. -/
def leftBottomSegment (c : List Pt) : Option (Pt × Pt) :=
  (minIndex c).bind fun m =>
    let n := c.length
    (c[(m.1 + 1) % n]?).bind fun b0 => (c[(m.1 + n - 1) % n]?).bind fun b1 =>
      some (if isUnderSegment (m.2, b0) (m.2, b1) then (m.2, b0) else (m.2, b1))

/-- Lists collected by `extract`: `shapes` (each a single contour at this stage), `holes`, `anchors`
(hole index and segment) and `is_all_anchors_sorted`, core/extract.rs:64-69. -/
structure Extracted where
  shapes : List (List Pt)
  holes : List (List Pt)
  anchors : List (Nat × Pt × Pt)
  sorted : Bool
deriving DecidableEq, Repr

/-- The initial lists, core/extract.rs:64-69. -/
def Extracted.empty : Extracted := ⟨[], [], [], true⟩

/-- `v_segment` of a hole before the check against `left_bottom_segment`, core/extract.rs:92-102. -/
def holeSegment (clockwise : Bool) (c : List Pt) : Option (Pt × Pt) :=
  if clockwise then (c[1]?).bind fun a => (c[2]?).bind fun b => some (a, b)
  else (c[0]?).bind fun a => (c[c.length - 1]?).bind fun b => some (a, b)

/-- Registration of a valid contour, core/extract.rs:91-117. -/
def Extracted.push (e : Extracted) (clockwise isHole isModified : Bool) (c : List Pt) : Option Extracted :=
  if isHole then
    (holeSegment clockwise c).bind fun v =>
      (leftBottomSegment c).bind fun mostLeft =>
        if isModified && mostLeft != v then
          some ⟨e.shapes, e.holes ++ [c], e.anchors ++ [(e.holes.length, mostLeft)], false⟩
        else some ⟨e.shapes, e.holes ++ [c], e.anchors ++ [(e.holes.length, v)], e.sorted⟩
  else some { e with shapes := e.shapes ++ [c] }

/-- The main loop of `extract`, core/extract.rs:68-118. `none`: not finished within the given number of
steps, or an index out of range. -/
def extractLoop (g : Graph) (rule : OverlayRule) (clockwise : Bool) (clean : List Pt → List Pt × Bool)
    (minArea : Nat) : Nat → Nat → List Bool → Extracted → Option Extracted
  | 0, _, _, _ => none
  | fuel + 1, li, vis, e =>
    if li < vis.length then
      if isVisited vis li then extractLoop g rule clockwise clean minArea fuel (li + 1) vis e
      else
        (findLeftTop g li vis).bind fun lt =>
          (g.links[lt]?).bind fun link =>
            let isHole := isFillTop rule link.fill
            let direction := isHole == clockwise
            (getContour g g.links.length (StartPath.new direction link lt) direction vis).bind fun r =>
              let v := validate clean minArea r.1
              if !v.1 then extractLoop g rule clockwise clean minArea fuel (li + 1) r.2 e
              else (e.push clockwise isHole v.2.1 v.2.2).bind fun e' =>
                extractLoop g rule clockwise clean minArea fuel li r.2 e'
    else some e

/-- The extraction loop run on a graph with an initial "visited" mask (core/extract.rs:62-118); enough
steps for any graph (C22). -/
def extractContours (g : Graph) (rule : OverlayRule) (clockwise : Bool) (clean : List Pt → List Pt × Bool)
    (minArea : Nat) (filter : List Bool) : Option Extracted :=
  extractLoop g rule clockwise clean minArea (2 * filter.length + 1) 0 filter Extracted.empty

end IOverlay
