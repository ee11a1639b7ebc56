/-
Splitting by fragments: the grid (split/grid_layout.rs, split/fragment.rs) and one round of
`fragment_split` (split/solver_fragment.rs).
-/
import Verif.Split
import Mathlib.Data.List.Sort

namespace IOverlay

variable {C : Type}

/-- `IntRect` (external `i_float`). -/
structure Rect where
  minX : Int
  maxX : Int
  minY : Int
  maxY : Int
deriving DecidableEq, Repr

/-- `IntRect::contains_with_radius` (external `i_float`). -/
def Rect.containsWithRadius (r : Rect) (p : Pt) (radius : Int) : Bool :=
  decide (r.minX - radius ≤ p.x) && decide (p.x ≤ r.maxX + radius) &&
  decide (r.minY - radius ≤ p.y) && decide (p.y ≤ r.maxY + radius)

/-- `IntRect::is_intersect_border_include` (external `i_float`). -/
def Rect.meets (r o : Rect) : Bool :=
  decide (r.minX ≤ o.maxX) && decide (o.minX ≤ r.maxX) && decide (r.minY ≤ o.maxY) && decide (o.minY ≤ r.maxY)

/-- `Fragment`, split/fragment.rs:4-9. -/
structure Fragment where
  index : Nat
  rect : Rect
  seg : XSeg
deriving DecidableEq, Repr

/-- `Fragment::with_index_and_segment`, split/fragment.rs:14-32. -/
def Fragment.whole (index : Nat) (s : XSeg) : Fragment :=
  ⟨index, if s.a.y < s.b.y then ⟨s.a.x, s.b.x, s.a.y, s.b.y⟩ else ⟨s.a.x, s.b.x, s.b.y, s.a.y⟩, s⟩

/-- `GridLayout`, split/grid_layout.rs:167-171. -/
structure Grid where
  minX : Int
  maxX : Int
  power : Nat
deriving DecidableEq, Repr

/-- `GridLayout::index`, split/grid_layout.rs:175-177 (`x ≥ min_x`, as for every edge given to the grid, see
C44; a negative difference would wrap to a huge index). -/
def Grid.index (g : Grid) (x : Int) : Nat := ((x - g.minX) / 2 ^ g.power).toNat

/-- `GridLayout::pos`, split/grid_layout.rs:180-182. -/
def Grid.pos (g : Grid) (i : Nat) : Int := i * 2 ^ g.power + g.minX

/-- `GridLayout::with_min_max`, split/grid_layout.rs:205-218. -/
def Grid.withMinMax (minX maxX : Int) (maxPower : Nat) : Option Grid :=
  let dx := maxX - minX
  if dx < 4 then none
  else
    let log := dx.toNat.log2
    some ⟨minX, maxX, if log > maxPower then log - maxPower else 1⟩

/-- `GridLayout::new`, split/grid_layout.rs:184-203, called with the number of edges. -/
def Grid.new (segs : List (Seg C)) : Option Grid :=
  match segs with
  | [] => none
  | s :: rest =>
    Grid.withMinMax s.a.x (rest.foldl (fun m t => max t.b.x m) s.b.x) ((s :: rest).length.log2 / 2)

/-- The inner `while`, split/grid_layout.rs:112-115. The first argument is fuel (`height` suffices). -/
def raiseTo (width height w : Nat) : Nat → Nat → Nat
  | 0, h => h
  | fuel + 1, h => if h * width < height * w then raiseTo width height w fuel (h + 1) else h

/-- The loop over the columns crossed and the last piece, split/grid_layout.rs:110-146. The arguments in order:
remaining columns, column `i`, `w`, `prev_x`, `prev_y`. Pairs of column and fragment. -/
def cutLoop (g : Grid) (index : Nat) (s : XSeg) (width height p k : Nat) :
    Nat → Nat → Nat → Int → Int → List (Nat × Fragment)
  | 0, i, _, px, py =>
    [(i, ⟨index, if s.a.y ≤ s.b.y then ⟨px, s.b.x, py, s.b.y⟩ else ⟨px, s.b.x, s.b.y, py⟩, s⟩)]
  | n + 1, i, w, px, py =>
    let hMin := w * k / 2 ^ p
    let hMax := raiseTo width height w (height + 1) hMin
    let maxX := s.a.x + w
    if s.a.y ≤ s.b.y then
      (i, ⟨index, ⟨px, maxX, py, s.a.y + hMax⟩, s⟩) ::
        cutLoop g index s width height p k n (i + 1) (w + 2 ^ g.power) maxX (s.a.y + hMin)
    else
      (i, ⟨index, ⟨px, maxX, s.a.y - hMax, py⟩, s⟩) ::
        cutLoop g index s width height p k n (i + 1) (w + 2 ^ g.power) maxX (s.a.y - hMin)

/-- The loop of `add_horizontal`, split/grid_layout.rs:153-164: remaining columns, column, `x0`. -/
def flatLoop (g : Grid) (index : Nat) (s : XSeg) : Nat → Nat → Int → List (Nat × Fragment)
  | 0, i, x0 => [(i, ⟨index, ⟨x0, s.b.x, s.a.y, s.a.y⟩, s⟩)]
  | n + 1, i, x0 =>
    (i, ⟨index, ⟨x0, g.pos (i + 1), s.a.y, s.a.y⟩, s⟩) :: flatLoop g index s n (i + 1) (g.pos (i + 1))

/-- `add_segment` and `add_horizontal`, split/grid_layout.rs:74-165: the fragments inserted, with the number of
the group (the vertical edges registered in `on_border` are found again by `borders`). -/
def addSegment (g : Grid) (index : Nat) (s : XSeg) : List (Nat × Fragment) :=
  let i0 := g.index s.a.x
  let i1 := g.index (s.b.x - 1)
  if s.a.y = s.b.y then flatLoop g index s (i1 - i0) i0 s.a.x
  else if s.a.x = s.b.x then [(i0, Fragment.whole index s)]
  else if i0 ≥ i1 then [(i0, Fragment.whole index s)]
  else
    let width := (s.b.x - s.a.x).toNat
    let height := (s.b.y - s.a.y).natAbs
    let p := 63 - (width * height).log2
    let k := height * 2 ^ p / width
    cutLoop g index s width height p k (i1 - i0) i0 (g.pos (i0 + 1) - s.a.x).toNat s.a.x s.a.y

/-- All fragments of the edges, split/solver_fragment.rs:29-32. -/
def allFragments (g : Grid) (segs : List (Seg C)) : List (Nat × Fragment) :=
  segs.zipIdx.flatMap fun s => addSegment g s.2 s.1.x

/-- Number of groups, split/grid_layout.rs:22. -/
def Grid.size (g : Grid) : Nat := g.index g.maxX + 1

/-- Group number `b` of the buffer, in insertion order. -/
def groupOf (fs : List (Nat × Fragment)) (b : Nat) : List Fragment := (fs.filter fun f => f.1 == b).map (·.2)

/-- The buffer after all edges are added: the groups in order. -/
def groups (g : Grid) (segs : List (Seg C)) : List (List Fragment) :=
  (List.range g.size).map (groupOf (allFragments g segs))

/-- `radius as i32`, split/solver_fragment.rs:182 (wraps for radii of `2^31` and more). -/
def toI32 (r : Int) : Int := r.bmod (2 ^ 32)

/-- `XSegment::cmp`, geom/x_segment.rs:41-51, as `<`. -/
def XSeg.lt (s t : XSeg) : Bool := decide (s.a < t.a ∨ (s.a = t.a ∧ s.b < t.b))

/-- `cross_fragments`, split/solver_fragment.rs:175-245: marks pushed and the returned flag. -/
def crossFragments (radius : Int) (fi fj : Fragment) : List Mark × Bool :=
  match cross fi.seg fj.seg radius with
  | none => ([], false)
  | some r =>
    let r32 := toI32 radius
    match r.type with
    | .overlay =>
      let m := collinear fi.seg fj.seg
      if !m.targetA && !m.targetB && !m.otherA && !m.otherB then ([], false)
      else if !(fi.rect.containsWithRadius fi.seg.a r32 || fj.rect.containsWithRadius fi.seg.a r32) then ([], false)
      else
        ((if m.targetA then [⟨fj.index, fi.seg.a⟩] else []) ++ (if m.targetB then [⟨fj.index, fi.seg.b⟩] else []) ++
          (if m.otherA then [⟨fi.index, fj.seg.a⟩] else []) ++ (if m.otherB then [⟨fi.index, fj.seg.b⟩] else []),
          r.isRound)
    | t =>
      if !fi.rect.containsWithRadius r.point r32 || !fj.rect.containsWithRadius r.point r32 then ([], false)
      else
        match t with
        | .pure => ([⟨fi.index, r.point⟩, ⟨fj.index, r.point⟩], r.isRound)
        | .targetEnd => ([⟨fj.index, r.point⟩], r.isRound)
        | .otherEnd => ([⟨fi.index, r.point⟩], r.isRound)
        | .overlay => ([], r.isRound)

/-- One call of `cross_fragments` with the operands in the order of their edges,
split/solver_fragment.rs:139-143. -/
def crossOrdered (radius : Int) (fi fj : Fragment) : List Mark × Bool :=
  if fi.seg.lt fj.seg then crossFragments radius fi fj else crossFragments radius fj fi

/-- Inner loop of `bin_split` for one `fi`, split/solver_fragment.rs:129-136: the pairs examined. -/
def binScan (fi : Fragment) : List Fragment → List (Fragment × Fragment)
  | [] => []
  | fj :: rest =>
    if fi.rect.maxY < fj.rect.minY then []
    else if !fi.rect.meets fj.rect then binScan fi rest
    else (fi, fj) :: binScan fi rest

/-- Both loops of `bin_split`, split/solver_fragment.rs:128-148. -/
def binPairs : List Fragment → List (Fragment × Fragment)
  | [] => []
  | fi :: rest => binScan fi rest ++ binPairs rest

/-- `sort_unstable_by` with `rect.min_y`, split/solver_fragment.rs:124 (a stable sort in the model; the order of
equal keys only changes the order of the marks). -/
def sortByMinY (fs : List Fragment) : List Fragment :=
  fs.insertionSort fun f h => f.rect.minY ≤ h.rect.minY

/-- The pairs examined by `bin_split`, split/solver_fragment.rs:119-151. -/
def binWork (fs : List Fragment) : List (Fragment × Fragment) :=
  if fs.length < 2 then [] else binPairs (sortByMinY fs)

/-- `bin_split`, split/solver_fragment.rs:119-151: marks pushed and the returned flag. -/
def binSplit (radius : Int) (fs : List Fragment) : List Mark × Bool :=
  ((binWork fs).flatMap fun w => (crossOrdered radius w.1 w.2).1, (binWork fs).any fun w => (crossOrdered radius w.1 w.2).2)

/-- `serial_split`, split/solver_fragment.rs:67-76. -/
def serialSplit (radius : Int) (gs : List (List Fragment)) : List Mark × Bool :=
  gs.foldl (fun st fs =>
    if fs.isEmpty then st
    else let r := binSplit radius fs; (st.1 ++ r.1, st.2 || r.2)) ([], false)

/-- Vertical edges in the map `on_border` under the key `b`, split/grid_layout.rs:53-65: index and `y_range`. -/
def borders (g : Grid) (segs : List (Seg C)) (b : Nat) : List (Nat × Int × Int) :=
  segs.zipIdx.filterMap fun s =>
    if s.1.a.y ≠ s.1.b.y ∧ s.1.a.x = s.1.b.x ∧ g.index s.1.a.x = b ∧ 0 < b ∧ s.1.a.x = g.pos b
    then some (s.2, yRange s.1.x) else none

/-- The loop of `on_border_split`, split/solver_fragment.rs:167-176. -/
def borderLoop : List (Nat × Int × Int) → List Pt → List Mark
  | [], _ => []
  | s :: rest, pts =>
    let pts' := pts.dropWhile fun p => decide (p.y ≤ s.2.1)
    ((pts'.takeWhile fun p => decide (p.y < s.2.2)).map fun p => ⟨s.1, p⟩) ++ borderLoop rest pts'

/-- `on_border_split`, split/solver_fragment.rs:153-177. -/
def onBorderSplit (borderX : Int) (fs : List Fragment) (vs : List (Nat × Int × Int)) : List Mark :=
  let points := (fs.filter fun f => f.seg.b.x == borderX).map (·.seg.b)
  if points.isEmpty then []
  else borderLoop (vs.insertionSort fun s t => s.2.1 ≤ t.2.1) (points.insertionSort fun p q => p.y ≤ q.y)

/-- One round, split/solver_fragment.rs:29-47: all marks and `need_to_fix`. The iteration order of the hash map
`on_border` only changes the order of the marks; groups in increasing order in the model. -/
def fragRound (g : Grid) (radius : Int) (segs : List (Seg C)) : List Mark × Bool :=
  let gs := groups g segs
  let r := serialSplit radius gs
  (r.1 ++ (gs.zipIdx.flatMap fun fs => onBorderSplit (g.pos fs.2) fs.1 (borders g segs fs.2)), r.2)

/-- The loop of `fragment_split`, split/solver_fragment.rs:27-59. `none` means the fuel ran out. -/
def fragLoop [WindingCount C] (g : Grid) : Nat → SnapRadius → List (Seg C) → Option (List (Seg C))
  | 0, _, _ => none
  | n + 1, sr, segs =>
    if segs.length ≤ 2 then some segs
    else
      let r := fragRound g sr.radius segs
      if r.1.isEmpty then some segs
      else
        let segs' := applyMarks r.1 segs
        if r.2 then fragLoop g n sr.increment segs' else some segs'

/-- `fragment_split`, split/solver_fragment.rs:11-59. -/
def fragSplit [WindingCount C] (st : Strategy) (tree : TreeOracle C) (fuel : Nat) (sr : SnapRadius)
    (segs : List (Seg C)) : Option (List (Seg C)) :=
  match Grid.new segs with
  | none => splitLoop st tree fuel .tree sr segs
  | some g => fragLoop g fuel sr segs

/-- `Solver::is_fragmentation_required`, core/solver.rs:174-176. -/
def isFragmentation (st : Strategy) (n : Nat) : Bool := decide (16000 < n) || st == .frag

/-- `split_segments` (split/solver.rs:19-25) followed by `SplitSolver::split` (39-55). -/
def splitSegments [WindingCount C] (st : Strategy) (sr : SnapRadius) (tree : TreeOracle C) (fuel : Nat)
    (segs : List (Seg C)) : Option (List (Seg C)) :=
  let segs := mergeIfNeeded (sortSegs segs)
  if isListSplit st segs.length then splitLoop st tree fuel .list sr segs
  else if isFragmentation st segs.length then fragSplit st tree fuel sr segs
  else splitLoop st tree fuel .tree sr segs

end IOverlay
