/-
The builders `Overlay` and `StringOverlay` (core/overlay.rs, string/overlay.rs), and the one-call
operations on integer shapes (core/simplify.rs, string/slice.rs, string/clip.rs).
-/
import Verif.Overlay
import Verif.Vector
import Verif.Slice

namespace IOverlay

/-! ### `Overlay` -/

/-- `Overlay`, core/overlay.rs:37-40: the registered edges (the capacity of the vector is not modelled). -/
abbrev OverlayB := List (Seg CountBool)

/-- `Overlay::new`, core/overlay.rs:47-51. -/
def OverlayB.new : OverlayB := []

/-- `Overlay::add_path_iter`, core/overlay.rs:89-91 (`append_path_iter` pushes the edges of the path). -/
def OverlayB.addPathIter (o : OverlayB) (path : List Pt) (st : ShapeType) : OverlayB := o ++ appendContour st path

/-- `Overlay::add_contour`, core/overlay.rs:97-99. -/
def OverlayB.addContour (o : OverlayB) (contour : List Pt) (st : ShapeType) : OverlayB := o ++ appendContour st contour

/-- `Overlay::add_contours`, core/overlay.rs:105-109. -/
def OverlayB.addContours (o : OverlayB) (contours : List (List Pt)) (st : ShapeType) : OverlayB :=
  contours.foldl (fun o c => o.addContour c st) o

/-- `Overlay::add_shape`, core/overlay.rs:115-117. -/
def OverlayB.addShape (o : OverlayB) (shape : List (List Pt)) (st : ShapeType) : OverlayB := o.addContours shape st

/-- `Overlay::add_shapes`, core/overlay.rs:122-126. -/
def OverlayB.addShapes (o : OverlayB) (shapes : List (List (List Pt))) (st : ShapeType) : OverlayB :=
  shapes.foldl (fun o s => o.addContours s st) o

/-- `Overlay::with_contour`, core/overlay.rs:56-61. -/
def OverlayB.withContour (subj clip : List Pt) : OverlayB :=
  (OverlayB.new.addContour subj .subject).addContour clip .clip

/-- `Overlay::with_contours`, core/overlay.rs:66-71. -/
def OverlayB.withContours (subj clip : List (List Pt)) : OverlayB :=
  (OverlayB.new.addContours subj .subject).addContours clip .clip

/-- `Overlay::with_shapes`, core/overlay.rs:76-81. -/
def OverlayB.withShapes (subj clip : List (List (List Pt))) : OverlayB :=
  (OverlayB.new.addShapes subj .subject).addShapes clip .clip

/-- One call that adds geometry to an `Overlay`. -/
inductive AddCall where
  | pathIter (path : List Pt) (st : ShapeType)
  | contour (contour : List Pt) (st : ShapeType)
  | contours (contours : List (List Pt)) (st : ShapeType)
  | shape (shape : List (List Pt)) (st : ShapeType)
  | shapes (shapes : List (List (List Pt))) (st : ShapeType)
deriving DecidableEq, Repr

/-- The effect of a call, core/overlay.rs:89-126. -/
def OverlayB.call (o : OverlayB) : AddCall → OverlayB
  | .pathIter p st => o.addPathIter p st
  | .contour c st => o.addContour c st
  | .contours cs st => o.addContours cs st
  | .shape s st => o.addShape s st
  | .shapes ss st => o.addShapes ss st

/-- A builder after a sequence of calls. -/
def OverlayB.run (o : OverlayB) (calls : List AddCall) : OverlayB := calls.foldl OverlayB.call o

/-! ### `Simplify` -/

/-- `impl Simplify for IntPath`, core/simplify.rs:31-37. -/
def simplifyPath (k : Config) (x : Externals) (path : List Pt) (rule : FillRule) (cw : Bool) (minArea : Nat) :
    Option (List (List (List Pt))) :=
  overlayCustom k x .subject rule cw minArea (OverlayB.new.addContour path .subject)

/-- `impl Simplify for [IntPath]`, core/simplify.rs:39-45. -/
def simplifyPaths (k : Config) (x : Externals) (paths : List (List Pt)) (rule : FillRule) (cw : Bool) (minArea : Nat) :
    Option (List (List (List Pt))) :=
  overlayCustom k x .subject rule cw minArea (OverlayB.new.addContours paths .subject)

/-- `impl Simplify for IntShape`, core/simplify.rs:47-53. -/
def simplifyShape (k : Config) (x : Externals) (shape : List (List Pt)) (rule : FillRule) (cw : Bool) (minArea : Nat) :
    Option (List (List (List Pt))) :=
  overlayCustom k x .subject rule cw minArea (OverlayB.new.addShape shape .subject)

/-- `impl Simplify for [IntShape]`, core/simplify.rs:55-61. -/
def simplifyShapes (k : Config) (x : Externals) (shapes : List (List (List Pt))) (rule : FillRule) (cw : Bool)
    (minArea : Nat) : Option (List (List (List Pt))) :=
  overlayCustom k x .subject rule cw minArea (OverlayB.new.addShapes shapes .subject)

/-! ### `StringOverlay` -/

/-- `StringOverlay`, string/overlay.rs:17-20: the registered edges. -/
abbrev StringB := List (Seg CountStr)

/-- `StringOverlay::new`, string/overlay.rs:27-31. -/
def StringB.new : StringB := []

/-- `StringOverlay::add_shape_contour_iter` and `add_shape_contour`, string/overlay.rs:74-83. -/
def StringB.addShapeContour (o : StringB) (contour : List Pt) : StringB := o ++ appendContour .subject contour

/-- `StringOverlay::add_shape_contours`, string/overlay.rs:87-91. -/
def StringB.addShapeContours (o : StringB) (contours : List (List Pt)) : StringB :=
  contours.foldl StringB.addShapeContour o

/-- `StringOverlay::add_shapes`, string/overlay.rs:96-100. -/
def StringB.addShapes (o : StringB) (shapes : List (List (List Pt))) : StringB :=
  shapes.foldl StringB.addShapeContours o

/-- `StringOverlay::add_string_line`, string/overlay.rs:105-115. -/
def StringB.addLine (o : StringB) (line : Pt × Pt) : StringB := o ++ addStringLine line.1 line.2

/-- `StringOverlay::add_string_lines`, string/overlay.rs:120-124. -/
def StringB.addLines (o : StringB) (lines : List (Pt × Pt)) : StringB := lines.foldl StringB.addLine o

/-- `StringOverlay::add_string_path`, string/overlay.rs:129-138. -/
def StringB.addPath (o : StringB) (path : List Pt) : StringB := o ++ addStringPath path

/-- `StringOverlay::add_string_contour`, string/overlay.rs:143-152. -/
def StringB.addContour (o : StringB) (contour : List Pt) : StringB := o ++ addStringContour contour

/-- `StringOverlay::add_string_paths`, string/overlay.rs:157-161. -/
def StringB.addPaths (o : StringB) (paths : List (List Pt)) : StringB := paths.foldl StringB.addPath o

/-- `StringOverlay::add_string_contours`, string/overlay.rs:166-170. -/
def StringB.addContours (o : StringB) (contours : List (List Pt)) : StringB := contours.foldl StringB.addContour o

/-- One call that adds geometry to a `StringOverlay`. -/
inductive StrCall where
  | shapeContour (contour : List Pt)
  | shapeContours (contours : List (List Pt))
  | shapes (shapes : List (List (List Pt)))
  | line (line : Pt × Pt)
  | lines (lines : List (Pt × Pt))
  | path (path : List Pt)
  | contour (contour : List Pt)
  | paths (paths : List (List Pt))
  | contours (contours : List (List Pt))
deriving DecidableEq, Repr

/-- The effect of a call, string/overlay.rs:74-170. -/
def StringB.call (o : StringB) : StrCall → StringB
  | .shapeContour c => o.addShapeContour c
  | .shapeContours cs => o.addShapeContours cs
  | .shapes ss => o.addShapes ss
  | .line l => o.addLine l
  | .lines ls => o.addLines ls
  | .path p => o.addPath p
  | .contour c => o.addContour c
  | .paths ps => o.addPaths ps
  | .contours cs => o.addContours cs

/-- A builder after a sequence of calls. -/
def StringB.run (o : StringB) (calls : List StrCall) : StringB := calls.foldl StringB.call o

/-- The solver parameters and external collections used by string operations. -/
structure StrConfig where
  st : Strategy
  sr : SnapRadius
  tree : TreeOracle CountStr
  scan : ScanOracle CountStr
  fuel : Nat

/-- `clip_string_lines_with_solver`, string/overlay.rs:190-193. -/
def StringB.clipLines (k : StrConfig) (sortE : List End → List End) (clip : ClipRule) (rule : FillRule) (o : StringB) :
    Option (List (List Pt)) :=
  IOverlay.clipLines clip rule k.st k.sr k.tree k.scan k.fuel sortE o

/-- `into_graph_with_solver`, string/overlay.rs:208-211. -/
def StringB.intoGraph (k : StrConfig) (sortE : List End → List End) (rule : FillRule) (o : StringB) : Option Graph :=
  stringGraph rule k.st k.sr k.tree k.scan k.fuel sortE o

/-- `into_graph(fill_rule).extract_shapes(StringRule::Slice)`, the body of every `slice_by_*`, string/slice.rs. -/
def StringB.slice (k : StrConfig) (x : Externals) (order : List Pt → Bool) (rule : FillRule) (o : StringB) :
    Option (List (List (List Pt))) :=
  (o.intoGraph k x.sortE rule).bind (sliceShapes x order false 0)

/-- What `IntSlice` and `IntClip` are implemented for: `IntShapes`, `IntShape`, `[IntPoint]`
(string/slice.rs:16, 46, 76; string/clip.rs:149, 179, 209). -/
inductive Cuttable where
  | shapes (shapes : List (List (List Pt)))
  | shape (shape : List (List Pt))
  | contour (contour : List Pt)
deriving DecidableEq, Repr

/-- What a cut or clip is made with: one line, lines, one path, paths (string/slice.rs:9-14). -/
inductive Cutter where
  | line (line : Pt × Pt)
  | lines (lines : List (Pt × Pt))
  | path (path : List Pt)
  | paths (paths : List (List Pt))
deriving DecidableEq, Repr

/-- `StringOverlay::with_shapes`, `with_shape`, `with_shape_contour`, string/overlay.rs:36-67. -/
def StringB.withShape : Cuttable → StringB
  | .shapes ss => StringB.new.addShapes ss
  | .shape s => StringB.new.addShapeContours s
  | .contour c => StringB.new.addShapeContour c

/-- `overlay.add_string_line(line)` and so on, string/slice.rs:18-43. -/
def StringB.addCutter (o : StringB) : Cutter → StringB
  | .line l => o.addLine l
  | .lines ls => o.addLines ls
  | .path p => o.addPath p
  | .paths ps => o.addPaths ps

/-- `IntSlice`, string/slice.rs:16-105 (12 functions). -/
def intSlice (k : StrConfig) (x : Externals) (order : List Pt → Bool) (s : Cuttable) (c : Cutter) (rule : FillRule) :
    Option (List (List (List Pt))) :=
  ((StringB.withShape s).addCutter c).slice k x order rule

/-- `IntClip`, string/clip.rs:149-237 (12 functions). -/
def intClip (k : StrConfig) (sortE : List End → List End) (s : Cuttable) (c : Cutter) (rule : FillRule)
    (clip : ClipRule) : Option (List (List Pt)) :=
  ((StringB.withShape s).addCutter c).clipLines k sortE clip rule

end IOverlay
