/-
Segments, winding counts, contour ingestion, sort and merge (segm/*.rs).
-/
import Verif.Geom

namespace IOverlay

/-- `ShapeType`, core/overlay.rs:24-28. -/
inductive ShapeType | subject | clip
deriving DecidableEq, Repr

/-- trait `WindingCount`, segm/winding_count.rs:26-36. `zero` is `new(0,0)`. `apply` is the in-place
version of `add` and is modelled by `add`. -/
class WindingCount (C : Type) where
  isNotEmpty : C → Bool
  zero : C
  ofShape : ShapeType → C × C
  add : C → C → C
  invert : C → C

/-- `ShapeCountBoolean`, segm/winding_count.rs:4-8. -/
structure CountBool where
  subj : Int
  clip : Int
deriving DecidableEq, Repr, Inhabited

/-- impl `WindingCount for ShapeCountBoolean`, segm/winding_count.rs:38-73 and the constants
of lines 19-24. -/
instance : WindingCount CountBool where
  isNotEmpty c := c.subj != 0 || c.clip != 0
  zero := ⟨0, 0⟩
  ofShape
    | .subject => (⟨1, 0⟩, ⟨-1, 0⟩)
    | .clip => (⟨0, 1⟩, ⟨0, -1⟩)
  add c d := ⟨c.subj + d.subj, c.clip + d.clip⟩
  invert c := ⟨-c.subj, -c.clip⟩

/-- `ShapeCountString`, segm/winding_count.rs:10-14. The clip mask is a `u8` of which only the two
low bits are ever set: bit 0 `back` (`STRING_BACK_CLIP = 0b01`, line 17), bit 1 `forward`
(`STRING_FORWARD_CLIP = 0b10`, line 16). -/
structure CountStr where
  subj : Int
  back : Bool
  fwd : Bool
deriving DecidableEq, Repr, Inhabited

/-- impl `WindingCount for ShapeCountString`, segm/winding_count.rs:75-118. `|` on masks is
bitwise or, `invert` swaps the two bits. -/
instance : WindingCount CountStr where
  isNotEmpty c := c.subj != 0 || (c.back || c.fwd)
  zero := ⟨0, false, false⟩
  ofShape
    | .subject => (⟨1, false, false⟩, ⟨-1, false, false⟩)
    | .clip => (⟨0, false, true⟩, ⟨0, true, false⟩)
  add c d := ⟨c.subj + d.subj, c.back || d.back, c.fwd || d.fwd⟩
  invert c := ⟨-c.subj, c.fwd, c.back⟩

/-- `Segment<C>`, segm/segment.rs:23-27 (with `XSegment`, geom/x_segment.rs:6-10, inlined). -/
structure Seg (C : Type) where
  a : Pt
  b : Pt
  c : C
deriving DecidableEq, Repr

variable {C : Type}

/-- `Segment::with_ab`, segm/build.rs:80-89. -/
def withAB (p0 p1 : Pt) (direct invert : C) : Seg C :=
  if p0 < p1 then ⟨p0, p1, direct⟩ else ⟨p1, p0, invert⟩

/-- `Segment::create_and_validate`, segm/segment.rs:29-38. -/
def createValidate [WindingCount C] (a b : Pt) (c : C) : Seg C :=
  if a < b then ⟨a, b, c⟩ else ⟨b, a, WindingCount.invert c⟩

/-- `XSegment::cmp`, geom/x_segment.rs:41-51, as a boolean `≤` on the edges of two segments. -/
def Seg.le (s t : Seg C) : Bool :=
  decide (s.a < t.a) || (decide (s.a = t.a) && (decide (s.b < t.b) || decide (s.b = t.b)))

/-- `x_segment` equality (derived `PartialEq` on `XSegment`). -/
def Seg.sameX (s t : Seg C) : Bool := decide (s.a = t.a) && decide (s.b = t.b)

/-! ### Contour ingestion, segm/build.rs:19-78 -/

/-- First loop of `private_append_iter`, segm/build.rs:25-32: skip points collinear with the
first edge. Returns `(p0, p1, remaining points)`. -/
def skipLine : Pt → Pt → List Pt → Pt × Pt × List Pt
  | p0, p1, [] => (p0, p1, [])
  | p0, p1, p :: rest =>
    if !isLine p0 p1 p then (p1, p, rest) else skipLine p0 p rest

/-- Main loop of `private_append_iter`, segm/build.rs:38-47. Returns the pushed segments and the
final `(p0, p1)`. -/
def mainLoop (direct invert : C) : Pt → Pt → List Pt → List (Seg C) × Pt × Pt
  | p0, p1, [] => ([], p0, p1)
  | p0, p1, p :: rest =>
    if isLine p0 p1 p then mainLoop direct invert p0 p rest
    else
      let r := mainLoop direct invert p1 p rest
      (withAB p0 p1 direct invert :: r.1, r.2)

/-- The closing `match` of `private_append_iter`, segm/build.rs:49-77. -/
def closePath (direct invert : C) (q0 q1 p0 p1 : Pt) : List (Seg C) :=
  match isLine p0 p1 q0, isLine q0 q1 p1 with
  | false, false =>
    [withAB p0 p1 direct invert, withAB p1 q0 direct invert, withAB q0 q1 direct invert]
  | true, true => if p0 ≠ q1 then [withAB p0 q1 direct invert] else []
  | true, false =>
    (if p0 ≠ q0 then [withAB p0 q0 direct invert] else []) ++ [withAB q0 q1 direct invert]
  | false, true =>
    [withAB p0 p1 direct invert] ++ (if p1 ≠ q1 then [withAB p1 q1 direct invert] else [])

/-- `private_append_iter`, segm/build.rs:19-78: the segments pushed for one contour. -/
def appendPath (direct invert : C) : List Pt → List (Seg C)
  | [] => []
  | [_] => []
  | q0 :: p1 :: rest =>
    let r := skipLine q0 p1 rest
    let q1 := r.1
    let m := mainLoop direct invert r.1 r.2.1 r.2.2
    m.1 ++ closePath direct invert q0 q1 m.2.1 m.2.2

/-- `append_path_iter` with the counts of a shape type, segm/build.rs:13-16 and 36. -/
def appendContour [WindingCount C] (st : ShapeType) (pts : List Pt) : List (Seg C) :=
  appendPath (WindingCount.ofShape st).1 (WindingCount.ofShape st).2 pts

/-- `Overlay::with_contours` / `add_contours`, core/overlay.rs:67-73, 104-108: all segments of the
subject contours followed by those of the clip contours. -/
def overlaySegments [WindingCount C] (subj clip : List (List Pt)) : List (Seg C) :=
  subj.flatMap (appendContour .subject) ++ clip.flatMap (appendContour .clip)

/-! ### Sort and merge -/

/-- Insertion of one segment into a sorted list (helper of `sortSegs`). -/
def insertSeg (s : Seg C) : List (Seg C) → List (Seg C)
  | [] => [s]
  | t :: rest => if s.le t then s :: t :: rest else t :: insertSeg s rest

/-- `smart_bin_sort_by(|a,b| a.x_segment.cmp(&b.x_segment))`, split/solver.rs:21 and util/sort.rs.
Simplification: any sorted permutation may be produced by the real (unstable, binned, possibly
parallel) sort; the model takes an insertion sort. C09 shows that the difference cannot be
observed after `mergeIfNeeded`. -/
def sortSegs (l : List (Seg C)) : List (Seg C) := l.foldr insertSeg []

/-- The loop of `merge`, segm/merge.rs:25-49, `prev` being the accumulated segment. -/
def mergeLoop [WindingCount C] (prev : Seg C) : List (Seg C) → List (Seg C)
  | [] => if WindingCount.isNotEmpty prev.c then [prev] else []
  | s :: rest =>
    if prev.sameX s then mergeLoop { prev with c := WindingCount.add prev.c s.c } rest
    else if WindingCount.isNotEmpty prev.c then prev :: mergeLoop s rest
    else mergeLoop s rest

/-- The search loop of `merge_if_needed`, segm/merge.rs:12-21: the prefix before the first pair of
equal neighbours is kept untouched, the rest goes through `merge`. -/
def mergeScan [WindingCount C] (prev : Seg C) : List (Seg C) → List (Seg C)
  | [] => [prev]
  | s :: rest => if prev.sameX s then mergeLoop prev (s :: rest) else prev :: mergeScan s rest

/-- `merge_if_needed`, segm/merge.rs:9-22. -/
def mergeIfNeeded [WindingCount C] : List (Seg C) → List (Seg C)
  | [] => []
  | s :: rest => mergeScan s rest

end IOverlay
