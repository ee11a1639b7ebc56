/-
The public operations: one-shot overlay, graph and extraction from a graph (core/overlay.rs,
core/extract.rs).
-/
import Verif.Bind
import Verif.Links

namespace IOverlay

/-- The solver parameters and external collections used by the splitting and fill phases. -/
structure Config where
  st : Strategy
  sr : SnapRadius
  tree : TreeOracle CountBool
  scan : ScanOracle CountBool
  fuel : Nat

/-- Nothing, unless the edges are split by fragments (strategy `Frag` or more than 16000 edges): then
fragments can discover all touches (see `FragOk`). -/
def FragFor (k : Config) (subj clip : List (List Pt)) : Prop :=
  FragOk k.st k.sr (overlaySegments subj clip : List (Seg CountBool))

/-- `Overlay::overlay_custom`, core/overlay.rs:230-237, on the registered edges. -/
def overlayCustom (k : Config) (x : Externals) (r : OverlayRule) (rule : FillRule) (clockwise : Bool)
    (minArea : Nat) (segs : List (Seg CountBool)) : Option (List (List (List Pt))) :=
  (buildBoolean (isIncluded r) rule k.st k.sr k.tree k.scan k.fuel segs).bind fun links =>
    (Graph.new x.sortE links).bind fun g =>
      extract x g r clockwise minArea (List.replicate g.links.length false)

/-- `Overlay::into_graph_with_solver`, core/overlay.rs:150-158. -/
def intoGraph (k : Config) (x : Externals) (rule : FillRule) (segs : List (Seg CountBool)) : Option Graph :=
  (buildBoolean isGraphIncluded rule k.st k.sr k.tree k.scan k.fuel segs).bind fun links =>
    Graph.new x.sortE links

/-- `OverlayGraph::extract_shapes_custom`, core/extract.rs:48-51 (`filter_by_rule`: core/filter.rs). -/
def extractShapesCustom (x : Externals) (g : Graph) (r : OverlayRule) (clockwise : Bool) (minArea : Nat) :
    Option (List (List (List Pt))) :=
  extract x g r clockwise minArea (g.links.map fun l => maskFilter r l.fill)

end IOverlay
