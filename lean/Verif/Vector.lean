/-
Vector extraction: result contours as edges carrying the fill of their two sides
(vector/extract_vectors.rs, bind/segment.rs:112-142, core/overlay.rs:126-144).
-/
import Verif.Overlay
import Verif.Rules

namespace IOverlay

/-- `StartVectorPathData`, vector/extract_vectors.rs:127-134. -/
structure StartVector where
  a : Pt
  b : Pt
  node : Nat
  link : Nat
  last : Nat
  fill : Fill
deriving DecidableEq, Repr

/-- The two ways `extract_shape_vectors` starts a path, vector/extract_vectors.rs:46-65. -/
def StartVector.new (isHole : Bool) (l : Link) (id : Nat) : StartVector :=
  if isHole then ⟨l.b, l.a, l.aId, id, l.bId, l.fill⟩ else ⟨l.a, l.b, l.bId, id, l.aId, l.fill⟩

/-- The loop of `get_vector_path`, vector/extract_vectors.rs:94-121 (the choice of the next link,
lines 96-107, is the one of `get_contour`). `none`: not finished within the given number of steps, or an
index out of range. -/
def vectorWalk (g : Graph) (clockwise : Bool) (last : Nat) :
    Nat → Nat → Nat → List Bool → List VectorEdge → Option (List VectorEdge × List Bool)
  | fuel, node, link, vis, path =>
    if node = last then some (path, vis)
    else
      match fuel with
      | 0 => none
      | fuel + 1 =>
        (nextLink g link node clockwise vis).bind fun link' =>
          (g.links[link']?).bind fun l =>
            if l.aId = node then
              vectorWalk g clockwise last fuel l.bId link' (visit vis link') (path ++ [VectorEdge.new l.fill l.a l.b])
            else
              vectorWalk g clockwise last fuel l.aId link' (visit vis link') (path ++ [VectorEdge.new l.fill l.b l.a])

/-- `get_vector_path`, vector/extract_vectors.rs:76-124. -/
def getVectorPath (g : Graph) (fuel : Nat) (s : StartVector) (clockwise : Bool) (vis : List Bool) :
    Option (List VectorEdge × List Bool) :=
  vectorWalk g clockwise s.last fuel s.node s.link (visit vis s.link) [VectorEdge.new s.fill s.a s.b]

/-- The paths collected by `extract_shape_vectors`: outer boundaries (each the only path of a shape so
far) and holes, vector/extract_vectors.rs:30-31. -/
structure VectorPaths where
  shapes : List (List (List VectorEdge))
  holes : List (List VectorEdge)
deriving DecidableEq, Repr

/-- The main loop of `extract_shape_vectors`, vector/extract_vectors.rs:33-69. -/
def vectorLoop (g : Graph) (rule : OverlayRule) : Nat → Nat → List Bool → VectorPaths → Option VectorPaths
  | 0, _, _, _ => none
  | fuel + 1, li, vis, v =>
    if li < vis.length then
      if isVisited vis li then vectorLoop g rule fuel (li + 1) vis v
      else
        (findLeftTop g li vis).bind fun lt =>
          (g.links[lt]?).bind fun link =>
            let isHole := isFillTop rule link.fill
            (getVectorPath g g.links.length (StartVector.new isHole link lt) isHole vis).bind fun r =>
              vectorLoop g rule fuel (li + 1) r.2
                (if isHole then { v with holes := v.holes ++ [r.1] } else { v with shapes := v.shapes ++ [[r.1]] })
    else some v

/-- `append_id_segments` for a `VectorPath`, bind/segment.rs:112-142. -/
def vectorIdSegments (id : CIdx) (xMin xMax : Int) (clockwise : Bool) (path : List VectorEdge) : List IdSeg :=
  (if clockwise then path else path.reverse).filterMap fun v =>
    if v.a.x < v.b.x ∧ xMin < v.b.x ∧ v.a.x ≤ xMax then some ⟨v.a, v.b, id⟩ else none

/-- The anchor of a hole, vector/extract_vectors.rs:158-168. `none`: `path[1]` out of range. -/
def vectorAnchor (h : List VectorEdge × Nat) : Option IdSeg :=
  (h.1[1]?).map fun v => if v.a < v.b then ⟨v.a, v.b, ⟨true, h.2⟩⟩ else ⟨v.b, v.a, ⟨true, h.2⟩⟩

/-- `scan_join`, vector/extract_vectors.rs:154-188. `sortX` is `smart_bin_sort_by` on `a.x` (external, a
parameter of the model). -/
def vectorScanJoin (o : BindOracle) (sortX : List IdSeg → List IdSeg) (shapes : List (List (List VectorEdge)))
    (holes : List (List VectorEdge)) (clockwise : Bool) : Option (List (List (List VectorEdge))) :=
  (holes.zipIdx.mapM vectorAnchor).bind fun anchors =>
    (anchors.head?).bind fun first => (anchors.getLast?).bind fun last =>
      let segs := shapes.zipIdx.flatMap fun s =>
        vectorIdSegments ⟨false, s.2⟩ first.a.x last.a.x clockwise (s.1.headD [])
      (bindSolve o shapes.length anchors (sortX segs)).bind
        fun parents => if holes.length ≤ parents.length then pushHoles shapes (holes.zip parents) else none

/-- `join`, vector/extract_vectors.rs:142-152. -/
def vectorJoin (o : BindOracle) (sortX : List IdSeg → List IdSeg) (shapes : List (List (List VectorEdge)))
    (holes : List (List VectorEdge)) (clockwise : Bool) : Option (List (List (List VectorEdge))) :=
  if shapes.isEmpty || holes.isEmpty then some shapes
  else match shapes with
    | [s] => some [s ++ holes]
    | _ => vectorScanJoin o sortX shapes holes clockwise

/-- The paths found by `extract_shape_vectors` before the holes are attached,
vector/extract_vectors.rs:27-69 (`filter_by_rule`: core/filter.rs). -/
def vectorPaths (g : Graph) (rule : OverlayRule) : Option VectorPaths :=
  vectorLoop g rule (g.links.length + 1) 0 (g.links.map fun l => maskFilter rule l.fill) ⟨[], []⟩

/-- `OverlayGraph::extract_shape_vectors`, vector/extract_vectors.rs:27-74. -/
def extractShapeVectors (o : BindOracle) (sortX : List IdSeg → List IdSeg) (g : Graph) (rule : OverlayRule) :
    Option (List (List (List VectorEdge))) :=
  (vectorPaths g rule).bind fun v => vectorJoin o sortX v.shapes v.holes true

/-- `OverlayGraph::extract_separate_vectors`, vector/extract_vectors.rs:16-25. -/
def extractSeparateVectors (g : Graph) : List VectorEdge := g.links.map fun l => ⟨l.a, l.b, l.fill⟩

/-- `Overlay::into_shape_vectors`, core/overlay.rs:132-136, on the registered edges. -/
def intoShapeVectors (k : Config) (x : Externals) (sortX : List IdSeg → List IdSeg) (rule : FillRule) (r : OverlayRule)
    (segs : List (Seg CountBool)) : Option (List (List (List VectorEdge))) :=
  (buildBoolean (isIncluded r) rule k.st k.sr k.tree k.scan k.fuel segs).bind fun links =>
    (Graph.new x.sortE links).bind fun g => extractShapeVectors x.bind sortX g r

/-- `Overlay::into_separate_vectors`, core/overlay.rs:141-144 (`build_boolean_all`, core/link.rs:114-121:
no filter), on the registered edges. -/
def intoSeparateVectors (k : Config) (x : Externals) (rule : FillRule) (segs : List (Seg CountBool)) :
    Option (List VectorEdge) :=
  (buildBoolean (fun _ => true) rule k.st k.sr k.tree k.scan k.fuel segs).bind fun links =>
    (Graph.new x.sortE links).map extractSeparateVectors

/-- `ToPath::to_path`, vector/edge.rs:50-54. -/
def toPath (path : List VectorEdge) : List Pt := path.map (·.a)

end IOverlay
