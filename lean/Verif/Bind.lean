/-
Attaching holes to shapes (bind/solver.rs, bind/segment.rs) and the complete extraction.
-/
import Verif.Extract
import Verif.Fill

namespace IOverlay

/-- `ContourIndex`, bind/segment.rs:7-36 (the bit tricks are modelled as a pair; `EMPTY` is modelled as
a missing value). -/
structure CIdx where
  hole : Bool
  index : Nat
deriving DecidableEq, Repr

/-- `IdSegment`, bind/segment.rs:38-42: the `VSegment` is `a`, `b`, the contour index is `c`. -/
abbrev IdSeg := Seg CIdx

/-- `VSegment::cmp_by_angle`, geom/v_segment.rs:48-55. -/
def cmpByAngle (s t : IdSeg) : Ordering := compare 0 ((s.b.sub s.a).cross (t.b.sub t.a))

/-- `IntPoint::cmp` (external; by `x`, then by `y`). -/
def Pt.cmp (p q : Pt) : Ordering := if p < q then .lt else if p = q then .eq else .gt

/-- `cmp_by_a_then_by_angle`, bind/solver.rs:236-242. -/
def cmpByAThenAngle (s t : IdSeg) : Ordering := (s.a.cmp t.a).then (cmpByAngle s t)

/-- `IntPath::append_id_segments`, bind/segment.rs:71-108. The iteration visits the points (backwards
unless `clockwise`); `e = (b, a)` are consecutive points of it, the last pair closes the contour. -/
def idSegments (id : CIdx) (xMin xMax : Int) (clockwise : Bool) (c : List Pt) : List IdSeg :=
  (polyEdges (if clockwise then c else c.reverse)).filterMap fun e =>
    if e.2.x < e.1.x ∧ xMin < e.1.x ∧ e.2.x ≤ xMax then some ⟨e.2, e.1, id⟩ else none

/-- The scan list of the binder (`i_tree`, external): `lookup entries time key` is
`first_less(time, EMPTY, key)`, bind/solver.rs:84-85; `none` is `ContourIndex::EMPTY`. A parameter of
the model. -/
structure BindOracle where
  lookup : List IdSeg → Int → IdSeg → Option CIdx

/-- Contract of `first_less`: the greatest live entry smaller than the key (`VSegment::cmp`), if any. -/
structure BindOracle.Ok (o : BindOracle) : Prop where
  none_less : ∀ es t key, (∀ e ∈ es, t < e.b.x → vCmp e key ≠ .lt) → o.lookup es t key = none
  greatest : ∀ es t key e, e ∈ es → t < e.b.x → vCmp e key = .lt →
    (∀ e' ∈ es, t < e'.b.x → vCmp e' key = .lt → e' = e ∨ vCmp e' e = .lt) → o.lookup es t key = some e.c

/-- The inner `while` loop, bind/solver.rs:70-82: remaining segments and new scan list. -/
def bindInsert (anchor : IdSeg) : List IdSeg → List IdSeg → List IdSeg × List IdSeg
  | [], scan => ([], scan)
  | s :: rest, scan =>
    if cmpByAThenAngle s anchor = .gt then (s :: rest, scan)
    else bindInsert anchor rest (if anchor.a.x < s.b.x then scan ++ [s] else scan)

/-- The loop over the anchors, bind/solver.rs:67-98. `none`: index out of range (in particular when
`first_less` returns `EMPTY`). `children_count_for_parent` only reserves capacity; its bounds check
(line 97) is kept. -/
def bindLoop (o : BindOracle) (shapeCount : Nat) :
    List IdSeg → List IdSeg → List IdSeg → List Nat → Option (List Nat)
  | [], _, _, parents => some parents
  | anchor :: rest, segs, scan, parents =>
    let r := bindInsert anchor segs scan
    (o.lookup r.2 anchor.a.x anchor).bind fun t =>
      (if t.hole then parents[t.index]? else some t.index).bind fun parent =>
        if anchor.c.index < parents.length ∧ parent < shapeCount then
          bindLoop o shapeCount rest r.1 r.2 (parents.set anchor.c.index parent)
        else none

/-- `private_solve`, bind/solver.rs:48-104 (release build: initial parent 0). -/
def bindSolve (o : BindOracle) (shapeCount : Nat) (anchors segs : List IdSeg) : Option (List Nat) :=
  bindLoop o shapeCount anchors segs [] (List.replicate anchors.length 0)

/-- Pushing the holes, bind/solver.rs:190-194 and, for vector paths, vector/extract_vectors.rs:184-187.
`none`: index out of range. -/
def pushHoles {α : Type} : List (List α) → List (α × Nat) → Option (List (List α))
  | shapes, [] => some shapes
  | shapes, (hole, parent) :: rest =>
    (shapes[parent]?).bind fun s => pushHoles (shapes.set parent (s ++ [hole])) rest

/-- All floor edges given to the binder, bind/solver.rs:170-180 (before sorting). -/
def floorSegments (shapes : List (List (List Pt))) (holes : List (List Pt)) (xMin xMax : Int) (clockwise : Bool) :
    List IdSeg :=
  (shapes.zipIdx.flatMap fun s => idSegments ⟨false, s.2⟩ xMin xMax clockwise (s.1.headD [])) ++
  (holes.zipIdx.flatMap fun h => idSegments ⟨true, h.2⟩ xMin xMax clockwise h.1)

/-- `scan_join`, bind/solver.rs:164-196. `sortI` is `sort_by_a_then_by_angle` (external `smart_bin_sort`,
a parameter of the model). -/
def scanJoin (o : BindOracle) (sortI : List IdSeg → List IdSeg) (shapes : List (List (List Pt)))
    (holes : List (List Pt)) (anchors : List IdSeg) (clockwise : Bool) : Option (List (List (List Pt))) :=
  (anchors.head?).bind fun first => (anchors.getLast?).bind fun last =>
    (bindSolve o shapes.length anchors (sortI (floorSegments shapes holes first.a.x last.a.x clockwise))).bind
      fun parents => if holes.length ≤ parents.length then pushHoles shapes (holes.zip parents) else none

/-- Stable insertion of an anchor (helper). -/
def insertBy (cmp : IdSeg → IdSeg → Ordering) (x : IdSeg) : List IdSeg → List IdSeg
  | [] => [x]
  | y :: r => if cmp x y = .gt then y :: insertBy cmp x r else x :: y :: r

/-- `sort_by` of the standard library (stable); insertion sort in the model. -/
def stableSort (cmp : IdSeg → IdSeg → Ordering) (l : List IdSeg) : List IdSeg := l.foldr (insertBy cmp) []

/-- `add_sort_by_angle`, bind/solver.rs:255-275: every run of equal left ends is sorted by angle. -/
def addSortByAngle (l : List IdSeg) : List IdSeg :=
  (l.splitBy fun s t => decide (s.a = t.a)).flatMap (stableSort cmpByAngle)

/-- `join_sorted_holes`, bind/solver.rs:142-162. -/
def joinSortedHoles (o : BindOracle) (sortI : List IdSeg → List IdSeg) (shapes : List (List (List Pt)))
    (holes : List (List Pt)) (anchors : List IdSeg) (clockwise : Bool) : Option (List (List (List Pt))) :=
  if shapes.isEmpty || holes.isEmpty then some shapes
  else match shapes with
    | [s] => some [s ++ holes]
    | _ => scanJoin o sortI shapes holes (addSortByAngle anchors) clockwise

/-- `join_unsorted_holes`, bind/solver.rs:118-140. -/
def joinUnsortedHoles (o : BindOracle) (sortI : List IdSeg → List IdSeg) (shapes : List (List (List Pt)))
    (holes : List (List Pt)) (clockwise : Bool) : Option (List (List (List Pt))) :=
  if shapes.isEmpty || holes.isEmpty then some shapes
  else match shapes with
    | [s] => some [s ++ holes]
    | _ =>
      (holes.zipIdx.mapM fun h => (leftBottomSegment h.1).map fun v => (⟨v.1, v.2, ⟨true, h.2⟩⟩ : IdSeg)).bind
        fun segs => scanJoin o sortI shapes holes (sortI segs) clockwise

/-- The external parts used by the extraction. -/
structure Externals where
  sortE : List End → List End
  sortI : List IdSeg → List IdSeg
  bind : BindOracle
  clean : List Pt → List Pt × Bool

/-- `OverlayGraph::extract`, core/extract.rs:53-127. -/
def extract (x : Externals) (g : Graph) (rule : OverlayRule) (clockwise : Bool) (minArea : Nat)
    (filter : List Bool) : Option (List (List (List Pt))) :=
  (extractContours g rule clockwise x.clean minArea filter).bind fun e =>
    let anchors : List IdSeg := e.anchors.map fun a => ⟨a.2.1, a.2.2, ⟨true, a.1⟩⟩
    let anchors := if e.sorted then anchors else stableSort (fun s t => s.a.cmp t.a) anchors
    joinSortedHoles x.bind x.sortI (e.shapes.map fun c => [c]) e.holes anchors clockwise

end IOverlay
