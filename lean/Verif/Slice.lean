/-
Slicing: walks along the filled sides of the links, splitting of the walks into loops, assembly of the
shapes (string/filter.rs, string/extract.rs, string/split.rs).
-/
import Verif.Strings
import Verif.Bind

namespace IOverlay

/-! ### walks -/

/-- The side of a link used by a move that leaves `node`, string/filter.rs:9-20 (the `mask`). -/
def Link.moveMask (l : Link) (node : Nat) (clockwise : Bool) : Fill :=
  let isA := decide (l.aId = node)
  let direct := decide (l.a < l.b)
  let same := clockwise == direct
  if isA then (if same then SUBJ_TOP else SUBJ_BOTTOM)
  else if same then SUBJ_BOTTOM
  else SUBJ_TOP

/-- `OverlayLink::visit_fill`, string/filter.rs:8-23. -/
def Link.visitFill (l : Link) (fill : Fill) (node : Nat) (clockwise : Bool) : Fill :=
  fill &&& ~~~(l.moveMask node clockwise)

/-- `OverlayLink::is_move_possible`, string/filter.rs:26-42. -/
def Link.isMovePossible (l : Link) (fill : Fill) (node : Nat) (clockwise : Bool) : Bool :=
  if fill = SUBJ_BOTH then true
  else if fill = 0#8 then false
  else
    let isA := decide (l.aId = node)
    let direct := decide (l.a < l.b)
    let left := if direct then fill &&& SUBJ_TOP != 0#8 else fill &&& SUBJ_BOTTOM != 0#8
    isA == (clockwise == left)

/-- `StringGraph::filter_slice`, string/filter.rs:53-58. -/
def filterSlice (links : List Link) : List Fill := links.map fun l => l.fill &&& SUBJ_BOTH

/-- `self.link(i).is_move_possible(fills[i], node, clockwise)`; `false` for an index out of range (does
not occur, C30). -/
def canMove (g : Graph) (node : Nat) (clockwise : Bool) (fills : List Fill) (i : Nat) : Bool :=
  match g.links[i]?, fills[i]? with
  | some l, some f => l.isMovePossible f node clockwise
  | _, _ => false

/-- `StringGraph::find_nearest_link_to`, string/extract.rs:128-189. The first loop (lines 141-156) stops at
the second possible link other than the target; the last loop (lines 181-186) does not skip the target.
`none`: the panic "no move found" (line 162), or an index out of range. -/
def sliceNearest (g : Graph) (target node : Nat) (clockwise : Bool) (indices : List Nat) (fills : List Fill) :
    Option Nat :=
  let ok := fun i => i != target && canMove g node clockwise fills i
  match indices.dropWhile fun i => !ok i with
  | [] => if canMove g node clockwise fills target then some target else none
  | x :: r =>
    match r.dropWhile fun i => !ok i with
    | [] => some x
    | y :: rest =>
      (g.links[target]?).bind fun t =>
        let ca := if t.aId = node then (t.a, t.b) else (t.b, t.a)
        (g.links[x]?).bind fun lx =>
          (addVectors g node (y :: rest.filter (canMove g node clockwise fills))
            (NearestVector.new ca.1 ca.2 (lx.other node) x clockwise)).map (·.bestId)

/-- The loop of `StringGraph::get_paths`, string/extract.rs:106-122. `none`: panic, index out of range or
not finished within the given number of steps. -/
def sliceWalk (g : Graph) (clockwise : Bool) (last : Nat) :
    Nat → Nat → Nat → List Fill → List Pt → Option (List Pt × List Fill)
  | fuel, node, link, fills, path =>
    if node = last then some (path, fills)
    else
      match fuel with
      | 0 => none
      | fuel + 1 =>
        (sliceNearest g link node clockwise ((g.nodes[node]?).elim [] Node.indices) fills).bind fun i =>
          (g.links[i]?).bind fun l => (fills[i]?).bind fun f =>
            let fills' := fills.set i (l.visitFill f node clockwise)
            if l.aId = node then sliceWalk g clockwise last fuel l.bId i fills' (path ++ [l.a])
            else sliceWalk g clockwise last fuel l.aId i fills' (path ++ [l.b])

/-- `StringGraph::get_paths`, string/extract.rs:92-125. -/
def slicePath (g : Graph) (fuel start : Nat) (clockwise : Bool) (fills : List Fill) :
    Option (List Pt × List Fill) :=
  (g.links[start]?).bind fun l => (fills[start]?).bind fun f =>
    sliceWalk g clockwise l.aId fuel l.bId start (fills.set start (l.visitFill f l.aId clockwise)) [l.a]

/-- The loop over the links of `extract_shapes_custom`, string/extract.rs:51-65: the walks in order, each
with its `direction`. (The processing of a walk, lines 63-81, does not influence later walks and is
modelled separately in `assembleSlice`.) -/
def sliceLoop (g : Graph) : Nat → Nat → List Fill → List (Bool × List Pt) → Option (List (Bool × List Pt))
  | 0, _, _, _ => none
  | fuel + 1, i, fills, walks =>
    match fills[i]? with
    | none => some walks
    | some f =>
      if f = 0#8 then sliceLoop g fuel (i + 1) fills walks
      else
        let direction := f &&& SUBJ_TOP == SUBJ_TOP
        (slicePath g (2 * g.links.length) i direction fills).bind fun r =>
          sliceLoop g fuel i r.2 (walks ++ [(direction, r.1)])

/-- The walks of `extract_shapes_custom` (string/extract.rs:46-65); enough steps for any graph (C30). -/
def sliceWalks (g : Graph) : Option (List (Bool × List Pt)) :=
  sliceLoop g (3 * g.links.length + 1) 0 (filterSlice g.links) []

/-! ### loops -/

/-- `ValidateArea::validate_area`, string/split.rs:50-57 (`unsafe_area`, external: twice the signed area). -/
def validateArea (minArea : Nat) (c : List Pt) : Bool :=
  if minArea = 0 then true else decide ((doubleArea c).natAbs / 2 < minArea)

/-- State of `split_loops`, string/split.rs:13-15: `result`, `path`, `map` (a `HashMap`; here an association list,
a key is inserted only if it is missing). -/
structure LoopState where
  result : List (List Pt)
  path : List Pt
  map : List (Pt × Nat)
deriving DecidableEq, Repr

/-- One iteration of `split_loops`, string/split.rs:17-34. `none`: `pos` beyond the end of `path` (overflow in
`path.len() - pos`, panic of `split_off`). -/
def loopStep (minArea : Nat) (s : LoopState) (point : Pt) : Option LoopState :=
  match s.map.lookup point with
  | some pos =>
    if s.path.length < pos then none
    else if s.path.length - pos < 2 then some { s with path := s.path.take pos }
    else
      let tail := s.path.drop pos ++ [point]
      some ⟨if validateArea minArea tail then s.result ++ [tail] else s.result, s.path.take pos, s.map⟩
  | none => some ⟨s.result, s.path ++ [point], (point, s.path.length + 1) :: s.map⟩

/-- `Split::split_loops`, string/split.rs:12-41. -/
def splitLoops (minArea : Nat) (walk : List Pt) : Option (List (List Pt)) :=
  (walk.foldlM (loopStep minArea) ⟨[], [], []⟩).map fun s =>
    if 2 < s.path.length then s.result ++ [s.path] else s.result

/-! ### shapes -/

/-- Classification of the loops of one walk, string/extract.rs:67-81: new outer contours and holes.
`order` is `is_clockwise_ordered` (external crate `i_shape`, a parameter of the model). -/
def classifyLoops (order : List Pt → Bool) (clockwise direction : Bool) (paths : List (List Pt)) :
    List (List Pt) × List (List Pt) :=
  let outer := paths.filter fun p => order p != direction
  let holes := paths.filter fun p => order p == direction
  (outer.map fun p => if clockwise != order p then p.reverse else p,
   holes.map fun p => if clockwise == order p then p.reverse else p)

/-- The lists `shapes` (one contour each) and `holes` of `extract_shapes_custom`, string/extract.rs:47-82. -/
def assembleSlice (order : List Pt → Bool) (clockwise : Bool) (minArea : Nat) :
    List (Bool × List Pt) → Option (List (List Pt) × List (List Pt))
  | [] => some ([], [])
  | w :: ws =>
    (splitLoops minArea w.2).bind fun paths =>
      (assembleSlice order clockwise minArea ws).map fun r =>
        let c := classifyLoops order clockwise w.1 paths
        (c.1 ++ r.1, c.2 ++ r.2)

/-- `StringGraph::extract_shapes_custom`, string/extract.rs:39-89 (`extract_shapes`, lines 24-30: not
clockwise, `min_area` 0). -/
def sliceShapes (x : Externals) (order : List Pt → Bool) (clockwise : Bool) (minArea : Nat) (g : Graph) :
    Option (List (List (List Pt))) :=
  (sliceWalks g).bind fun walks =>
    (assembleSlice order clockwise minArea walks).bind fun r =>
      joinUnsortedHoles x.bind x.sortI (r.1.map fun c => [c]) r.2 clockwise

/-- `StringOverlay::into_graph_with_solver`, string/overlay.rs:209-212 (`build_string_all` includes every
edge, core/link.rs:75-83). -/
def stringGraph (rule : FillRule) (st : Strategy) (sr : SnapRadius) (tree : TreeOracle CountStr)
    (sc : ScanOracle CountStr) (fuel : Nat) (sortE : List End → List End) (segs : List (Seg CountStr)) :
    Option Graph :=
  (buildString (fun _ => true) rule st sr tree sc fuel segs).bind (Graph.new sortE)

/-- `slice_by_path`, `slice_by_lines` and so on (string/slice.rs): the shapes cut by the given lines. -/
def sliceBy (x : Externals) (order : List Pt → Bool) (rule : FillRule) (st : Strategy) (sr : SnapRadius)
    (tree : TreeOracle CountStr) (sc : ScanOracle CountStr) (fuel : Nat) (shape paths contours : List (List Pt)) :
    Option (List (List (List Pt))) :=
  (stringGraph rule st sr tree sc fuel x.sortE (stringSegments shape paths contours)).bind
    (sliceShapes x order false 0)

end IOverlay
