/-
Counts, graph and extraction of the stroke and outline operations (mesh/subject.rs, mesh/boolean.rs).
-/
import Verif.Overlay

namespace IOverlay

/-- `OffsetCountBoolean`, mesh/boolean.rs:19-23. -/
structure CountOff where
  subj : Int
  bold : Bool
deriving DecidableEq, Repr, Inhabited

/-- impl `WindingCount for OffsetCountBoolean`, mesh/boolean.rs:56-91. -/
instance : WindingCount CountOff where
  isNotEmpty c := c.subj != 0
  zero := ⟨0, true⟩
  ofShape
    | .subject => (⟨1, true⟩, ⟨-1, true⟩)
    | .clip => (⟨0, true⟩, ⟨0, true⟩)
  add c d := ⟨c.subj + d.subj, c.bold || d.bold⟩
  invert c := ⟨-c.subj, c.bold⟩

/-- `Segment::bold_subject_ab`, mesh/subject.rs:8-21. -/
def boldAB (p0 p1 : Pt) : Seg CountOff := if p0 < p1 then ⟨p0, p1, ⟨1, true⟩⟩ else ⟨p1, p0, ⟨-1, true⟩⟩

/-- `Segment::weak_subject_ab`, mesh/subject.rs:23-36. -/
def weakAB (p0 p1 : Pt) : Seg CountOff := if p0 < p1 then ⟨p0, p1, ⟨1, false⟩⟩ else ⟨p1, p0, ⟨-1, false⟩⟩

/-- `SubjectOffsetStrategy::add_and_fill`, mesh/boolean.rs:28-45 (`BOLD_BIT = 2`, line 26). -/
def addAndFillOff (this bot : CountOff) : CountOff × Fill :=
  let top : CountOff := ⟨bot.subj + this.subj, false⟩
  let subjTop := b8 (decide (top.subj > 0))
  let subjBot := b8 (decide (bot.subj > 0))
  (top, subjTop ||| (subjBot <<< 1) ||| (b8 this.bold <<< 2))

/-- `OverlayLink::is_bold`, mesh/boolean.rs:47-54. -/
def Link.isBold (l : Link) : Bool := l.fill &&& (1#8 <<< 2) != 0#8

/-- The solver parameters and external collections used for offset edges. -/
structure OffConfig where
  st : Strategy
  sr : SnapRadius
  tree : TreeOracle CountOff
  scan : ScanOracle CountOff
  fuel : Nat

/-- `OverlayGraph::offset_graph_with_solver`, mesh/boolean.rs:94-103 (`build_all_links`:
core/link.rs:143-154). -/
def offsetGraph (k : OffConfig) (x : Externals) (segs : List (Seg CountOff)) : Option Graph :=
  if segs.isEmpty then Graph.new x.sortE []
  else (splitSegments k.st k.sr k.tree k.fuel segs).bind fun r =>
    if r.isEmpty then Graph.new x.sortE []
    else Graph.new x.sortE (buildLinks (fun _ => true) r (fillSweep k.scan addAndFillOff r))

/-- The loop of `get_fill_path`, mesh/boolean.rs:205-234, with the flag `bold`. `none`: not finished within
the given number of steps, or an index out of range. -/
def walkOff (g : Graph) (clockwise : Bool) (last : Nat) :
    Nat → Nat → Nat → List Bool → List Pt → Bool → Option (List Pt × List Bool × Bool)
  | fuel, node, link, vis, path, bold =>
    if node = last then some (path, vis, bold)
    else
      match fuel with
      | 0 => none
      | fuel + 1 =>
        (nextLink g link node clockwise vis).bind fun link' =>
          (g.links[link']?).bind fun l =>
            if l.aId = node then
              walkOff g clockwise last fuel l.bId link' (visit vis link') (path ++ [l.a]) (bold || l.isBold)
            else walkOff g clockwise last fuel l.aId link' (visit vis link') (path ++ [l.b]) (bold || l.isBold)

/-- `get_fill_path`, mesh/boolean.rs:190-237. -/
def getFillPath (g : Graph) (fuel : Nat) (s : StartPath) (clockwise : Bool) (bold : Bool) (vis : List Bool) :
    Option (List Pt × List Bool × Bool) :=
  walkOff g clockwise s.last fuel s.node s.link (visit vis s.link) [s.begin] bold

/-- The main loop of `extract_offset_shapes`, mesh/boolean.rs:123-179. `none`: not finished within the given
number of steps, or an index out of range. -/
def extractOffLoop (g : Graph) (clockwise : Bool) (clean : List Pt → List Pt × Bool) (minArea : Nat) :
    Nat → Nat → List Bool → Extracted → Option Extracted
  | 0, _, _, _ => none
  | fuel + 1, li, vis, e =>
    if li < vis.length then
      if isVisited vis li then extractOffLoop g clockwise clean minArea fuel (li + 1) vis e
      else
        (findLeftTop g li vis).bind fun lt =>
          (g.links[lt]?).bind fun link =>
            let isHole := link.fill &&& SUBJ_TOP == SUBJ_TOP
            let direction := isHole == clockwise
            (getFillPath g g.links.length (StartPath.new direction link lt) direction link.isBold vis).bind fun r =>
              if !r.2.2 then extractOffLoop g clockwise clean minArea fuel (li + 1) r.2.1 e
              else
                let v := validate clean minArea r.1
                if !v.1 then extractOffLoop g clockwise clean minArea fuel (li + 1) r.2.1 e
                else (e.push clockwise isHole v.2.1 v.2.2).bind fun e' =>
                  extractOffLoop g clockwise clean minArea fuel li r.2.1 e'
    else some e

/-- The filter and the main loop of `extract_offset_shapes`, mesh/boolean.rs:105-181 (`visited`: the links filtered
out by the rule `Subject`, line 107). -/
def extractOffContours (g : Graph) (clockwise : Bool) (clean : List Pt → List Pt × Bool) (minArea : Nat) :
    Option Extracted :=
  let filter := g.links.map fun l => maskFilter .subject l.fill
  extractOffLoop g clockwise clean minArea (2 * filter.length + 1) 0 filter Extracted.empty

/-- `extract_offset` and `extract_offset_shapes`, mesh/boolean.rs:105-188. `x.clean` is `simplify_contour`
(`validate(min_area, true)`, line 145). -/
def extractOffset (x : Externals) (g : Graph) (clockwise : Bool) (minArea : Nat) : Option (List (List (List Pt))) :=
  (extractOffContours g clockwise x.clean minArea).bind fun e =>
    let anchors : List IdSeg := e.anchors.map fun a => ⟨a.2.1, a.2.2, ⟨true, a.1⟩⟩
    let anchors := if e.sorted then anchors else stableSort (fun s t => s.a.cmp t.a) anchors
    joinSortedHoles x.bind x.sortI (e.shapes.map fun c => [c]) e.holes anchors clockwise

/-- Graph and extraction, mesh/stroke/offset.rs:104-105, mesh/outline/offset.rs:121-122, 140-142, 156-158. -/
def offsetShapes (k : OffConfig) (x : Externals) (clockwise : Bool) (minArea : Nat) (segs : List (Seg CountOff)) :
    Option (List (List (List Pt))) :=
  (offsetGraph k x segs).bind fun g => extractOffset x g clockwise minArea

end IOverlay
