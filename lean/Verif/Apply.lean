/-
`SplitSolver::apply` as it is implemented: one sort of all marks, a cursor walking over edges and marks, bins,
a preallocated buffer written through unchecked indices (split/solver.rs:102-378). `Split.applyMarks` is what it is
supposed to compute; `none` is an access out of bounds (undefined behaviour for the unchecked ones).
-/
import Verif.Fragment
import Verif.MergeLemmas

namespace IOverlay

variable {C : Type}

/-- The order of marks, split/solver.rs:301. -/
def Mark.lt (m n : Mark) : Prop := m.index < n.index ∨ (m.index = n.index ∧ m.point < n.point)

/-- Contract of `smart_bin_sort_by` on marks (external): a sorted permutation. -/
structure MarkSort (srt : List Mark → List Mark) : Prop where
  perm : ∀ l, (srt l).Perm l
  sorted : ∀ l, (srt l).Pairwise fun m n => ¬ n.lt m

/-- Contract of `sort_by` / `sort_unstable_by` on edges: a sorted permutation. -/
structure SegSort (srt : List (Seg C) → List (Seg C)) : Prop where
  perm : ∀ l, (srt l).Perm l
  sorted : ∀ l, SortedSegs (srt l)

/-- `Vec::dedup`. -/
def dedupMarks : List Mark → List Mark
  | [] => []
  | [m] => [m]
  | m :: n :: rest => if m = n then dedupMarks (n :: rest) else m :: dedupMarks (n :: rest)

/-- The loop over the groups of marks with the same index, split/solver.rs:304-325. The edge is looked up for every
group (the code does so only when there are several points with equal `x`). -/
def sortGroups (segs : List (Seg C)) : Nat → List Mark → Option (List Mark)
  | 0, _ => none
  | _ + 1, [] => some []
  | n + 1, m :: rest =>
    let run := rest.takeWhile fun k => k.index == m.index
    let tail := rest.dropWhile fun k => k.index == m.index
    match segs[m.index]? with
    | none => none
    | some s =>
      (sortGroups segs n tail).map fun t =>
        (subSort (run.length + 1) s.a.y s.b (m.point :: run.map Mark.point)).map (fun p => ⟨m.index, p⟩) ++ t

/-- `sort_and_filter_marks`, split/solver.rs:299-325; `marks[0]` panics without marks. -/
def sortAndFilter (srt : List Mark → List Mark) (segs : List (Seg C)) (marks : List Mark) : Option (List Mark) :=
  match dedupMarks (srt marks) with
  | [] => none
  | ms => sortGroups segs (ms.length + 1) ms

/-- The loop over the edges, split/solver.rs:131-174: the pieces in the order they are written. `mj` is the current
mark, the last argument the marks after it; past the last mark `mj` keeps its value. -/
def emit [WindingCount C] : Nat → List (Seg C) → Mark → List Mark → List (Seg C)
  | _, [], _, _ => []
  | i, s :: segs, mj, ms =>
    if i ≠ mj.index then s :: emit (i + 1) segs mj ms
    else
      let run := ms.takeWhile fun k => k.index == mj.index
      let tail := ms.dropWhile fun k => k.index == mj.index
      let mj' := tail.head?.getD (run.getLast?.getD mj)
      chainSegs s.c s.b s.a (mj.point :: run.map Mark.point) ++ emit (i + 1) segs mj' tail.tail

/-- The middle and last pieces counted by `init_bins`, split/solver.rs:214-234: smaller `x` of each. -/
def chainXs (b : Pt) : Pt → List Pt → List Int
  | p, [] => [min p.x b.x]
  | p, m :: rest => min p.x m.x :: chainXs b m rest

/-- The loop of `init_bins`, split/solver.rs:202-235: the `x` whose bins are counted. -/
def emitX : Nat → List (Seg C) → Mark → List Mark → List Int
  | _, [], _, _ => []
  | i, s :: segs, mj, ms =>
    if i ≠ mj.index then s.a.x :: emitX (i + 1) segs mj ms
    else
      let run := ms.takeWhile fun k => k.index == mj.index
      let tail := ms.dropWhile fun k => k.index == mj.index
      let mj' := tail.head?.getD (run.getLast?.getD mj)
      chainXs s.b s.a (mj.point :: run.map Mark.point) ++ emitX (i + 1) segs mj' tail.tail

/-- `Bin` (external `i_key_sort`). -/
structure Bin where
  offset : Nat
  data : Nat
deriving DecidableEq, Repr

/-- `bins.get_unchecked_mut(layout.index(x)).data += 1`, split/solver.rs:205, 210, 224, 233. -/
def countBin (idx : Int → Nat) (bins : List Bin) (x : Int) : Option (List Bin) :=
  match bins[idx x]? with
  | none => none
  | some b => some (bins.set (idx x) { b with data := b.data + 1 })

/-- Counting, split/solver.rs:202-235. -/
def countAll (idx : Int → Nat) : List Bin → List Int → Option (List Bin)
  | bins, [] => some bins
  | bins, x :: xs => (countBin idx bins x).bind fun b => countAll idx b xs

/-- The offsets, split/solver.rs:237-243. -/
def setOffsets : Nat → List Bin → List Bin
  | _, [] => []
  | offset, b :: rest => ⟨offset, offset⟩ :: setOffsets (offset + b.data) rest

/-- `init_bins`, split/solver.rs:195-246. -/
def initBins (idx : Int → Nat) (maxX : Int) (xs : List Int) : Option (List Bin) :=
  (countAll idx (List.replicate (idx maxX + 1) ⟨0, 0⟩) xs).map (setOffsets 0)

/-- One unchecked write, e.g. split/solver.rs:135-138. -/
def writeBin (idx : Int → Nat) (st : List Bin × List (Seg C)) (s : Seg C) : Option (List Bin × List (Seg C)) :=
  match st.1[idx s.a.x]? with
  | none => none
  | some b =>
    if b.data < st.2.length then some (st.1.set (idx s.a.x) { b with data := b.data + 1 }, st.2.set b.data s) else none

/-- All writes. -/
def writeAll (idx : Int → Nat) : List Bin × List (Seg C) → List (Seg C) → Option (List Bin × List (Seg C))
  | st, [] => some st
  | st, s :: rest => (writeBin idx st s).bind fun st' => writeAll idx st' rest

/-- Sorting each bin, split/solver.rs:176-183. -/
def sortBins (srt : List (Seg C) → List (Seg C)) : List Bin → List (Seg C) → Option (List (Seg C))
  | [], buf => some buf
  | b :: rest, buf =>
    if b.offset < b.data then
      if b.data ≤ buf.length then
        sortBins srt rest (buf.take b.offset ++ srt ((buf.take b.data).drop b.offset) ++ buf.drop b.data)
      else none
    else sortBins srt rest buf

/-- `one_bin_merge` with `multi_split_edge`, split/solver.rs:248-297, before sorting: the first piece replaces the
edge, the others are pushed at the end. -/
def oneBin [WindingCount C] : Nat → List Mark → List (Seg C) → Option (List (Seg C))
  | 0, _, _ => none
  | _ + 1, [], segs => some segs
  | n + 1, m :: rest, segs =>
    let run := rest.takeWhile fun k => k.index == m.index
    let tail := rest.dropWhile fun k => k.index == m.index
    match segs[m.index]? with
    | none => none
    | some e =>
      match chainSegs e.c e.b e.a (m.point :: run.map Mark.point) with
      | [] => none
      | first :: more => oneBin n tail (segs.set m.index first ++ more)

/-- The external parts of `apply`: sort of marks, sort of edges, and `BinLayout::new(min..max, len)` with `index`. -/
structure ApplyExt (C : Type) where
  sortM : List Mark → List Mark
  sortS : List (Seg C) → List (Seg C)
  layout : Int → Int → Nat → Option (Int → Nat)

/-- Contract: sorts sort; the layout numbers the bins from left to right. -/
structure ApplyExt.Ok (x : ApplyExt C) : Prop where
  sortM : MarkSort x.sortM
  sortS : SegSort x.sortS
  layout : ∀ lo hi n idx, x.layout lo hi n = some idx → ∀ u v, lo ≤ u → u ≤ v → v ≤ hi → idx u ≤ idx v

/-- `SplitSolver::apply`, split/solver.rs:102-192. -/
def applyImpl [WindingCount C] (x : ApplyExt C) (marks : List Mark) (segs : List (Seg C)) : Option (List (Seg C)) :=
  match sortAndFilter x.sortM segs marks, segs with
  | none, _ => none
  | some [], _ => none
  | _, [] => none
  | some (m0 :: ms), s0 :: rest =>
    let lo := s0.a.x
    let hi := rest.foldl (fun m s => max m s.b.x) ((m0 :: ms).foldl (fun m k => max m k.point.x) s0.b.x)
    let len := (s0 :: rest).length + (m0 :: ms).length
    let one := (oneBin ((m0 :: ms).length + 1) (m0 :: ms) (s0 :: rest)).map fun l => mergeIfNeeded (x.sortS l)
    if len ≤ 16 then one
    else
      match x.layout lo hi len with
      | none => one
      | some idx =>
        (initBins idx hi (emitX 0 (s0 :: rest) m0 ms)).bind fun bins =>
        (writeAll idx (bins, List.replicate len ⟨⟨0, 0⟩, ⟨0, 0⟩, WindingCount.zero⟩) (emit 0 (s0 :: rest) m0 ms)).bind fun st =>
        (sortBins x.sortS st.1 st.2).map mergeIfNeeded

end IOverlay
