/-
The floating point front end (float/*.rs): resources, rounding to integers, the integer operation, and the
conversion back. The adapter of the external crate `i_float` is a parameter.
-/
import Verif.Api

namespace IOverlay

/-! ### resources -/

/-- The implementations of `OverlayResource` (float/source/single.rs, double.rs, triple.rs): one path, paths, or groups
of paths. Arrays, slices and vectors of the same depth have the same iterator. -/
inductive Resource (P : Type) where
  | single (path : List P)
  | double (paths : List (List P))
  | triple (groups : List (List (List P)))
deriving Repr

/-- The three iterators, float/source/single.rs:5-8, double.rs:5-8, triple.rs:5-9. -/
inductive PathIter (P : Type) where
  | single (slice : List P) (finished : Bool)
  | double (slice : List (List P)) (index : Nat)
  | triple (slice : List (List (List P))) (i j : Nat)
deriving Repr

/-- The loop of `TripleResourceIterator::next`, float/source/triple.rs:22-36: the item and the new `i`, `j`. -/
def tripleNext {P : Type} (slice : List (List (List P))) (i j : Nat) : Option (List P) × Nat × Nat :=
  if h : i < slice.length then
    if h' : j < slice[i].length then (some slice[i][j], i, j + 1)
    else tripleNext slice (i + 1) 0
  else (none, i, j)
termination_by slice.length - i

/-- `next`, float/source/single.rs:21-27, double.rs:21-30, triple.rs:22-36. -/
def PathIter.next {P : Type} : PathIter P → Option (List P) × PathIter P
  | .single slice finished => if finished then (none, .single slice finished) else (some slice, .single slice true)
  | .double slice index =>
    if h : index < slice.length then (some slice[index], .double slice (index + 1)) else (none, .double slice index)
  | .triple slice i j =>
    let r := tripleNext slice i j
    (r.1, .triple slice r.2.1 r.2.2)

/-- `iter_paths`, float/source/single.rs:41-43, double.rs:44-46, triple.rs:50-52. -/
def Resource.iterPaths {P : Type} : Resource P → PathIter P
  | .single path => .single path false
  | .double paths => .double paths 0
  | .triple groups => .triple groups 0 0

/-- A `for` loop over an iterator: the items until the first `None`; `none` if that takes more than `fuel` calls. -/
def PathIter.drain {P : Type} : Nat → PathIter P → Option (List (List P))
  | 0, _ => none
  | n + 1, it =>
    match it.next.1 with
    | none => some []
    | some p => (drain n it.next.2).map (p :: ·)

/-- All paths of a resource, as every loop over `iter_paths()` sees them. -/
def Resource.loop {P : Type} (r : Resource P) : Option (List (List P)) :=
  r.iterPaths.drain (match r with | .single _ => 2 | .double ps => ps.length + 1 | .triple gs => gs.flatten.length + 1)

/-! ### adapter and filter -/

/-- `FloatPointAdapter` (external crate `i_float`): `float_to_int`, `int_to_float`, `sqr_float_to_int`. -/
structure Adapter (P T : Type) where
  toInt : P → Pt
  toFloat : Pt → P
  sqrToInt : T → Nat

/-- `ContourFilter`, float/filter.rs:5-16. -/
structure ContourFilter (T : Type) where
  minArea : T
  simplifyContour : Bool
  cleanResult : Bool

/-- The parts of the external crates used by the front end: `FloatPointAdapter::with_iter`, the floating point
`simplify_contour`, zero and the number of bits of `T`. -/
structure FloatEnv (P T : Type) where
  adapterOf : List P → Adapter P T
  cleanFloat : Adapter P T → List (List (List P)) → List (List (List P))
  zero : T
  bits : Nat

/-- `ContourFilter::default`, float/filter.rs:17-23. -/
def FloatEnv.defaultFilter {P T : Type} (e : FloatEnv P T) : ContourFilter T := ⟨e.zero, true, decide (e.bits ≤ 32)⟩

/-- `to_float` on shapes (`ShapesToFloat`, external crate `i_shape`). -/
def Adapter.shapes {P T : Type} (a : Adapter P T) (ss : List (List (List Pt))) : List (List (List P)) :=
  ss.map fun s => s.map fun c => c.map a.toFloat

section
variable {P T : Type}

/-- The last lines of `overlay_custom` and `extract_shapes_custom`, float/overlay.rs:195-201, float/graph.rs:85-91,
float/string_graph.rs:64-70. -/
def FloatEnv.finish (e : FloatEnv P T) (a : Adapter P T) (f : ContourFilter T) (shapes : List (List (List Pt))) :
    List (List (List P)) :=
  if f.cleanResult then e.cleanFloat a (a.shapes shapes) else a.shapes shapes

/-! ### `FloatOverlay` -/

/-- `FloatOverlay`, float/overlay.rs:21-24. -/
structure FloatOverlay (P T : Type) where
  overlay : OverlayB
  adapter : Adapter P T

/-- `with_adapter`, float/overlay.rs:35-37. -/
def FloatOverlay.withAdapter (a : Adapter P T) : FloatOverlay P T := ⟨OverlayB.new, a⟩

/-- `unsafe_add_contour`, float/overlay.rs:103-106. -/
def FloatOverlay.addContour (o : FloatOverlay P T) (contour : List P) (st : ShapeType) : FloatOverlay P T :=
  { o with overlay := o.overlay.addPathIter (contour.map o.adapter.toInt) st }

/-- `unsafe_add_source`, float/overlay.rs:91-96. -/
def FloatOverlay.addSource (o : FloatOverlay P T) (r : Resource P) (st : ShapeType) : Option (FloatOverlay P T) :=
  r.loop.map fun paths => paths.foldl (fun o c => o.addContour c st) o

/-- `with_subj_and_clip`, float/overlay.rs:46-62. -/
def FloatOverlay.withSubjAndClip (e : FloatEnv P T) (subj clip : Resource P) : Option (FloatOverlay P T) :=
  subj.loop.bind fun ps => clip.loop.bind fun qs =>
    ((FloatOverlay.withAdapter (e.adapterOf (ps ++ qs).flatten)).addSource subj .subject).bind fun o =>
      o.addSource clip .clip

/-- `with_subj`, float/overlay.rs:69-82. -/
def FloatOverlay.withSubj (e : FloatEnv P T) (subj : Resource P) : Option (FloatOverlay P T) :=
  subj.loop.bind fun ps => (FloatOverlay.withAdapter (e.adapterOf ps.flatten)).addSource subj .subject

/-- `overlay_custom`, float/overlay.rs:192-202. `x` gives the external integer operations for the flag
`simplify_contour`. -/
def FloatOverlay.overlayCustom (e : FloatEnv P T) (k : Config) (x : Bool → Externals) (r : OverlayRule) (rule : FillRule)
    (cw : Bool) (f : ContourFilter T) (o : FloatOverlay P T) : Option (List (List (List P))) :=
  (IOverlay.overlayCustom k (x f.simplifyContour) r rule cw (o.adapter.sqrToInt f.minArea) o.overlay).map
    (e.finish o.adapter f)

/-- `FloatOverlayGraph`, float/graph.rs:20-23. -/
structure FloatGraph (P T : Type) where
  graph : Graph
  adapter : Adapter P T

/-- `into_graph_with_solver`, float/overlay.rs:119-122. -/
def FloatOverlay.intoGraph (k : Config) (x : Externals) (rule : FillRule) (o : FloatOverlay P T) :
    Option (FloatGraph P T) :=
  (IOverlay.intoGraph k x rule o.overlay).map fun g => ⟨g, o.adapter⟩

/-- `FloatOverlayGraph::extract_shapes_custom`, float/graph.rs:82-92. -/
def FloatGraph.extractShapesCustom (e : FloatEnv P T) (x : Bool → Externals) (r : OverlayRule) (cw : Bool)
    (f : ContourFilter T) (g : FloatGraph P T) : Option (List (List (List P))) :=
  (IOverlay.extractShapesCustom (x f.simplifyContour) g.graph r cw (g.adapter.sqrToInt f.minArea)).map
    (e.finish g.adapter f)

/-- `SingleFloatOverlay::overlay`, float/single.rs:39-41, with `FloatOverlay::overlay`, float/overlay.rs:162-164. -/
def floatOverlay (e : FloatEnv P T) (k : Config) (x : Bool → Externals) (subj clip : Resource P) (r : OverlayRule)
    (rule : FillRule) : Option (List (List (List P))) :=
  (FloatOverlay.withSubjAndClip e subj clip).bind fun o => o.overlayCustom e k x r rule false e.defaultFilter

/-- `SimplifyShape::simplify_shape_with_solver`, float/simplify.rs:44-55. -/
def floatSimplify (e : FloatEnv P T) (k : Config) (x : Bool → Externals) (subj : Resource P) (rule : FillRule) (cw : Bool)
    (minArea : T) : Option (List (List (List P))) :=
  (FloatOverlay.withSubj e subj).bind fun o => o.overlayCustom e k x .subject rule cw ⟨minArea, true, true⟩

/-! ### `FloatStringOverlay` -/

/-- `FloatStringOverlay`, float/string_overlay.rs:17-20. -/
structure FloatString (P T : Type) where
  overlay : StringB
  adapter : Adapter P T

/-- `unsafe_add_shape_contour`, float/string_overlay.rs:96-99. -/
def FloatString.addShapeContour (o : FloatString P T) (contour : List P) : FloatString P T :=
  { o with overlay := o.overlay.addShapeContour (contour.map o.adapter.toInt) }

/-- `unsafe_add_shapes`, float/string_overlay.rs:71-76. -/
def FloatString.addShapes (o : FloatString P T) (r : Resource P) : Option (FloatString P T) :=
  r.loop.map fun paths => paths.foldl FloatString.addShapeContour o

/-- `path.windows(2)`. -/
def windows2 : List P → List (P × P)
  | a :: b :: l => (a, b) :: windows2 (b :: l)
  | _ => []

/-- `unsafe_add_string_line`, float/string_overlay.rs:105-113. -/
def FloatString.addLine (o : FloatString P T) (path : List P) : FloatString P T :=
  (windows2 path).foldl
    (fun o w => { o with overlay := o.overlay.addLine (o.adapter.toInt w.1, o.adapter.toInt w.2) }) o

/-- `unsafe_add_string_lines`, float/string_overlay.rs:85-90. -/
def FloatString.addLines (o : FloatString P T) (r : Resource P) : Option (FloatString P T) :=
  r.loop.map fun paths => paths.foldl FloatString.addLine o

/-- `with_shape_and_string`, float/string_overlay.rs:46-62. -/
def FloatString.withShapeAndString (e : FloatEnv P T) (shape string : Resource P) : Option (FloatString P T) :=
  shape.loop.bind fun ps => string.loop.bind fun qs =>
    ((⟨StringB.new, e.adapterOf (ps ++ qs).flatten⟩ : FloatString P T).addShapes shape).bind fun o => o.addLines string

/-- `FloatClip::clip_by_with_solver`, float/clip.rs:57-60, with `clip_string_lines_with_solver`,
float/string_overlay.rs:143-146: `string` is clipped by `shape`. -/
def floatClip (e : FloatEnv P T) (k : StrConfig) (sortE : List End → List End) (string shape : Resource P) (rule : FillRule)
    (clip : ClipRule) : Option (List (List P)) :=
  (FloatString.withShapeAndString e shape string).bind fun o =>
    (o.overlay.clipLines k sortE clip rule).map fun paths => paths.map fun p => p.map o.adapter.toFloat

/-- `FloatSlice::slice_custom_by`, float/slice.rs:69-73, with `FloatStringGraph::extract_shapes_custom`,
float/string_graph.rs:61-71: `shape` is sliced by `string`. -/
def floatSlice (e : FloatEnv P T) (k : StrConfig) (x : Externals) (order : List Pt → Bool) (shape string : Resource P)
    (rule : FillRule) (cw : Bool) (f : ContourFilter T) : Option (List (List (List P))) :=
  (FloatString.withShapeAndString e shape string).bind fun o =>
    ((o.overlay.intoGraph k x.sortE rule).bind (sliceShapes x order cw (o.adapter.sqrToInt f.minArea))).map
      (e.finish o.adapter f)

end

end IOverlay
