/-
Splitting phase: marks, application of marks, the list and tree loops (split/solver*.rs).
-/
import Verif.Cross

namespace IOverlay

variable {C : Type}

/-- `LineMark`, split/line_mark.rs:4-8. -/
structure Mark where
  index : Nat
  point : Pt
deriving DecidableEq, Repr

/-- A pair of edges handed to `SplitSolver::cross` with their indices (arguments of
split/solver.rs:57). -/
structure EPair where
  i : Nat
  j : Nat
  ei : XSeg
  ej : XSeg
deriving DecidableEq, Repr

/-- `SplitSolver::cross`, split/solver.rs:57-100: the marks pushed and the returned flag. -/
def crossMarks (radius : Int) (p : EPair) : List Mark × Bool :=
  match cross p.ei p.ej radius with
  | none => ([], false)
  | some r =>
    match r.type with
    | .pure => ([⟨p.i, r.point⟩, ⟨p.j, r.point⟩], r.isRound)
    | .targetEnd => ([⟨p.j, r.point⟩], r.isRound)
    | .otherEnd => ([⟨p.i, r.point⟩], r.isRound)
    | .overlay =>
      let m := collinear p.ei p.ej
      if !m.targetA && !m.targetB && !m.otherA && !m.otherB then ([], false)
      else
        ((if m.targetA then [⟨p.j, p.ei.a⟩] else []) ++ (if m.targetB then [⟨p.j, p.ei.b⟩] else []) ++
          (if m.otherA then [⟨p.i, p.ej.a⟩] else []) ++ (if m.otherB then [⟨p.i, p.ej.b⟩] else []),
          r.isRound)

/-- All marks of one round and the `need_to_fix` flag: the pairs are processed one after another,
split/solver_list.rs:32-33, split/solver_tree.rs:53-64. -/
def roundMarks (radius : Int) (pairs : List EPair) : List Mark × Bool :=
  (pairs.flatMap fun p => (crossMarks radius p).1, pairs.any fun p => (crossMarks radius p).2)

/-- `XSegment::y_range`, geom/x_segment.rs:13-20. -/
def yRange (e : XSeg) : Int × Int := if e.a.y < e.b.y then (e.a.y, e.b.y) else (e.b.y, e.a.y)

/-- `XSegment::is_not_intersect_y_range`, geom/x_segment.rs:28-31. -/
def notIntersectY (e : XSeg) (r : Int × Int) : Bool :=
  (decide (r.1 > e.a.y) && decide (r.1 > e.b.y)) || (decide (r.2 < e.a.y) && decide (r.2 < e.b.y))

/-- Inner loop of `list_split` for one `i`, split/solver_list.rs:22-34: the pairs for which `cross`
is called; `break` when the other edge starts right of the end of `ei`. -/
def listScan (i : Nat) (ei : XSeg) : Nat → List (Seg C) → List EPair
  | _, [] => []
  | j, s :: rest =>
    if ei.b.x < s.a.x then []
    else if notIntersectY s.x (yRange ei) then listScan i ei (j + 1) rest
    else ⟨i, j, ei, s.x⟩ :: listScan i ei (j + 1) rest

/-- Outer loop of `list_split`, split/solver_list.rs:19-35. -/
def listPairsFrom : Nat → List (Seg C) → List EPair
  | _, [] => []
  | i, s :: rest => listScan i s.x (i + 1) rest ++ listPairsFrom (i + 1) rest

def listPairs (segs : List (Seg C)) : List EPair := listPairsFrom 0 segs

/-! ### Applying marks -/

/-- Insertion into a strictly sorted list of points, dropping duplicates. -/
def insertPt (p : Pt) : List Pt → List Pt
  | [] => [p]
  | q :: rest => if p < q then p :: q :: rest else if p = q then q :: rest else q :: insertPt p rest

/-- The points marked on edge `i` in the order produced by the first two lines of
`sort_and_filter_marks`, split/solver.rs:301-302 (sort by index and point, `dedup`), restricted to the
group of index `i`. Simplification: one sort of all marks followed by grouping by index is modelled by
one sorted, duplicate free list per index. -/
def pointsOf (i : Nat) (marks : List Mark) : List Pt :=
  ((marks.filter fun m => m.index == i).map Mark.point).foldr insertPt []

/-- `sort_sub_marks` with `y_range` and `sort_sub_marks_by_y`, split/solver.rs:327-378: every run of
marks with equal `x` is reversed when the run lies between a higher previous and a lower next
point. `y0` is the `y` of the previous point. The first argument is fuel (the length suffices). -/
def subSort : Nat → Int → Pt → List Pt → List Pt
  | 0, _, _, l => l
  | _ + 1, _, _, [] => []
  | n + 1, y0, b, p :: rest =>
    let run := p :: rest.takeWhile fun q => q.x == p.x
    let tail := rest.dropWhile fun q => q.x == p.x
    let y1 := match tail with
      | [] => b.y
      | t :: _ => t.y
    let run' := if y0 > y1 then run.reverse else run
    run' ++ subSort n ((run'.getLast?.map Pt.y).getD y0) b tail

/-- Consecutive pieces `p → l₁ → … → b`, with `create_and_validate`; split/solver.rs:137-173 and
multi_split_edge, 277-297. -/
def chainSegs [WindingCount C] (c : C) (b : Pt) : Pt → List Pt → List (Seg C)
  | p, [] => [createValidate p b c]
  | p, m :: rest => createValidate p m c :: chainSegs c b m rest

/-- What becomes of edge number `i`: kept as it is when it has no mark, otherwise split in pieces,
split/solver.rs:137-173 (and one_bin_merge, 252-268). -/
def splitSeg [WindingCount C] (marks : List Mark) (i : Nat) (s : Seg C) : List (Seg C) :=
  match pointsOf i marks with
  | [] => [s]
  | m :: rest => chainSegs s.c s.b s.a (subSort (rest.length + 1) s.a.y s.b (m :: rest))

def splitAll [WindingCount C] (marks : List Mark) : Nat → List (Seg C) → List (Seg C)
  | _, [] => []
  | i, s :: rest => splitSeg marks i s ++ splitAll marks (i + 1) rest

/-- `SplitSolver::apply`, split/solver.rs:102-192 with one_bin_merge, 243-275: split, sort, merge.
Simplification: the order in which pieces are stored before sorting, the binning and the choice of
`one_bin_merge` only affect the outcome of the sort, see C09. -/
def applyMarks [WindingCount C] (marks : List Mark) (segs : List (Seg C)) : List (Seg C) :=
  mergeIfNeeded (sortSegs (splitAll marks 0 segs))

/-! ### Loops -/

/-- `Strategy`, core/solver.rs:14-20. -/
inductive Strategy | list | tree | frag | auto
deriving DecidableEq, Repr

/-- `Solver::is_list_split`, core/solver.rs:166-172. -/
def isListSplit (st : Strategy) (n : Nat) : Bool :=
  match st with
  | .list => true
  | .tree | .frag => false
  | .auto => decide (n < 4000)

/-- `SnapRadius`, split/snap_radius.rs:3-6, with `increment` (9-11) and `radius` (13-15). -/
structure SnapRadius where
  current : Nat
  step : Nat
deriving DecidableEq, Repr

def SnapRadius.increment (s : SnapRadius) : SnapRadius := { s with current := min 60 (s.current + s.step) }
def SnapRadius.radius (s : SnapRadius) : Int := 2 ^ s.current

/-- The external segment tree (`i_tree::SegExpTree`): whether it can be built for the given edges
(split/solver_tree.rs:31-36) and which pairs it reports during one round (46-66). Parameter of the
model; its contract is `Covers` below. -/
structure TreeOracle (C : Type) where
  canBuild : List (Seg C) → Bool
  pairs : List (Seg C) → List EPair

/-- Which loop is running. -/
inductive Mode | list | tree | treeLoop
deriving DecidableEq, Repr

/-- `list_split` (split/solver_list.rs:7-50) and `tree_split` (split/solver_tree.rs:25-86) in one
function, `mode` telling which of the two runs (`tree` is the entry of `tree_split`, `treeLoop` its
`while`). `none` means the fuel ran out. -/
def splitLoop [WindingCount C] (st : Strategy) (tree : TreeOracle C) :
    Nat → Mode → SnapRadius → List (Seg C) → Option (List (Seg C))
  | 0, _, _, _ => none
  | n + 1, .list, sr, segs =>
    if segs.length ≤ 1 then some segs
    else
      let r := roundMarks sr.radius (listPairs segs)
      if r.1.isEmpty then some segs
      else
        let segs' := applyMarks r.1 segs
        if r.2 then
          if isListSplit st segs'.length then splitLoop st tree n .list sr.increment segs'
          else splitLoop st tree n .tree sr.increment segs'
        else some segs'
  | n + 1, .tree, sr, segs =>
    if tree.canBuild segs then splitLoop st tree n .treeLoop sr segs
    else splitLoop st tree n .list sr segs
  | n + 1, .treeLoop, sr, segs =>
    if segs.length ≤ 2 then some segs
    else
      let r := roundMarks sr.radius (tree.pairs segs)
      if r.1.isEmpty then some segs
      else
        let segs' := applyMarks r.1 segs
        if r.2 then splitLoop st tree n .treeLoop sr.increment segs' else some segs'

end IOverlay
