/-
C53: how the input is grouped, and in which order it is added, makes no difference to any result.
-/
import Verif.Api
import Verif.Props.Merge
import Verif.Props.StringRoutes

namespace IOverlay
open WindingCount

/-! ### specification -/

/-- The contours a call hands over, each with its role. -/
def AddCall.given : AddCall → List (ShapeType × List Pt)
  | .pathIter p st => [(st, p)]
  | .contour c st => [(st, c)]
  | .contours cs st => cs.map (st, ·)
  | .shape s st => s.map (st, ·)
  | .shapes ss st => ss.flatten.map (st, ·)

/-- The contours handed over by a sequence of calls. -/
def givenBy (calls : List AddCall) : List (ShapeType × List Pt) := calls.flatMap AddCall.given

/-- The contours with a given role, in the order they were added. -/
def withRole (st : ShapeType) (cs : List (ShapeType × List Pt)) : List (List Pt) :=
  (cs.filter fun c => decide (c.1 = st)).map (·.2)

/-- The pieces of string geometry. -/
inductive StrItem where
  | shape (contour : List Pt)
  | line (line : Pt × Pt)
  | path (path : List Pt)
  | contour (contour : List Pt)
deriving DecidableEq, Repr

/-- What a call hands over to a `StringOverlay`. -/
def StrCall.given : StrCall → List StrItem
  | .shapeContour c => [.shape c]
  | .shapeContours cs => cs.map .shape
  | .shapes ss => ss.flatten.map .shape
  | .line l => [.line l]
  | .lines ls => ls.map .line
  | .path p => [.path p]
  | .contour c => [.contour c]
  | .paths ps => ps.map .path
  | .contours cs => cs.map .contour

/-- What a sequence of calls hands over. -/
def strGivenBy (calls : List StrCall) : List StrItem := calls.flatMap StrCall.given

/-- The shape contours handed over. -/
def shapesIn (l : List StrItem) : List (List Pt) := l.filterMap fun | .shape c => some c | _ => none

/-- The open lines handed over: a line is a path of two points. -/
def pathsIn (l : List StrItem) : List (List Pt) :=
  l.filterMap fun | .line l => some [l.1, l.2] | .path p => some p | _ => none

/-- The closed string lines handed over. -/
def contoursIn (l : List StrItem) : List (List Pt) := l.filterMap fun | .contour c => some c | _ => none

/-! ### the builders -/

theorem addContours_eq (o : OverlayB) (cs : List (List Pt)) (st : ShapeType) :
    o.addContours cs st = o ++ cs.flatMap (appendContour st) := by
  unfold OverlayB.addContours
  induction cs generalizing o with
  | nil => simp
  | cons c cs ih => rw [List.foldl_cons, ih, List.flatMap_cons, ← List.append_assoc]; rfl

theorem addShapes_eq (o : OverlayB) (ss : List (List (List Pt))) (st : ShapeType) :
    o.addShapes ss st = o ++ ss.flatten.flatMap (appendContour st) := by
  unfold OverlayB.addShapes
  induction ss generalizing o with
  | nil => simp
  | cons s ss ih =>
    rw [List.foldl_cons, ih, addContours_eq, List.flatten_cons, List.flatMap_append, List.append_assoc]

theorem call_eq (o : OverlayB) (c : AddCall) :
    o.call c = o ++ c.given.flatMap fun x => appendContour x.1 x.2 := by
  cases c with
  | pathIter p st => simp [OverlayB.call, OverlayB.addPathIter, AddCall.given]
  | contour c st => simp [OverlayB.call, OverlayB.addContour, AddCall.given]
  | contours cs st => simp only [OverlayB.call, addContours_eq, AddCall.given, List.flatMap_map]
  | shape s st => simp only [OverlayB.call, OverlayB.addShape, addContours_eq, AddCall.given, List.flatMap_map]
  | shapes ss st => simp only [OverlayB.call, addShapes_eq, AddCall.given, List.flatMap_map]

theorem run_eq (o : OverlayB) (calls : List AddCall) :
    o.run calls = o ++ (givenBy calls).flatMap fun x => appendContour x.1 x.2 := by
  unfold OverlayB.run givenBy
  induction calls generalizing o with
  | nil => simp
  | cons c l ih => rw [List.foldl_cons, ih, call_eq, List.flatMap_cons, List.flatMap_append, List.append_assoc]

theorem flatMap_roles (cs : List (ShapeType × List Pt)) :
    (cs.flatMap fun x => (appendContour x.1 x.2 : List (Seg CountBool))).Perm
      (overlaySegments (withRole .subject cs) (withRole .clip cs)) := by
  induction cs with
  | nil => exact List.Perm.refl _
  | cons c cs ih =>
    obtain ⟨st, c⟩ := c
    rw [List.flatMap_cons]
    cases st with
    | subject =>
      have e1 : withRole .subject ((ShapeType.subject, c) :: cs) = c :: withRole .subject cs := rfl
      have e2 : withRole .clip ((ShapeType.subject, c) :: cs) = withRole .clip cs := rfl
      rw [e1, e2]
      unfold overlaySegments at ih ⊢
      rw [List.flatMap_cons, List.append_assoc]
      exact ih.append_left _
    | clip =>
      have e1 : withRole .subject ((ShapeType.clip, c) :: cs) = withRole .subject cs := rfl
      have e2 : withRole .clip ((ShapeType.clip, c) :: cs) = c :: withRole .clip cs := rfl
      rw [e1, e2]
      unfold overlaySegments at ih ⊢
      rw [List.flatMap_cons]
      refine (ih.append_left _).trans ?_
      rw [← List.append_assoc, ← List.append_assoc]
      exact (List.perm_append_comm).append_right _

/-! ### everything after registration ignores the order -/

section
variable {C : Type} [LawfulCount C]

/-- The splitting phase gives the same edges for reordered input. -/
theorem splitSegments_perm (st : Strategy) (sr : SnapRadius) (tree : TreeOracle C) (fuel : Nat) {l l' : List (Seg C)}
    (hp : l.Perm l') (hne : ∀ s ∈ l, isNotEmpty s.c = true) :
    splitSegments st sr tree fuel l = splitSegments st sr tree fuel l' := by
  have e : mergeIfNeeded (sortSegs l) = mergeIfNeeded (sortSegs l') :=
    mergeIfNeeded_perm ((sortSegs_perm l).trans (hp.trans (sortSegs_perm l').symm)) (sortSegs_sorted l)
      (sortSegs_sorted l') fun s hs => hne s ((sortSegs_perm l).mem_iff.1 hs)
  unfold splitSegments
  rw [e]

end

theorem buildBoolean_perm (inc : Fill → Bool) (rule : FillRule) (k : Config) {l l' : List (Seg CountBool)}
    (hp : l.Perm l') (hne : ∀ s ∈ l, isNotEmpty s.c = true) :
    buildBoolean inc rule k.st k.sr k.tree k.scan k.fuel l = buildBoolean inc rule k.st k.sr k.tree k.scan k.fuel l' := by
  unfold buildBoolean
  rw [splitSegments_perm k.st k.sr k.tree k.fuel hp hne, hp.isEmpty_eq]

theorem buildString_perm (inc : Fill → Bool) (rule : FillRule) (k : StrConfig) {l l' : List (Seg CountStr)}
    (hp : l.Perm l') (hne : ∀ s ∈ l, isNotEmpty s.c = true) :
    buildString inc rule k.st k.sr k.tree k.scan k.fuel l = buildString inc rule k.st k.sr k.tree k.scan k.fuel l' := by
  unfold buildString
  rw [splitSegments_perm k.st k.sr k.tree k.fuel hp hne, hp.isEmpty_eq]

/-- All results of an `Overlay` agree: shapes for every rule, direction and area limit, the graph, the
vectors. -/
structure SameResults (k : Config) (x : Externals) (o o' : OverlayB) : Prop where
  overlay : ∀ r rule cw minArea, overlayCustom k x r rule cw minArea o = overlayCustom k x r rule cw minArea o'
  graph : ∀ rule, intoGraph k x rule o = intoGraph k x rule o'
  vectors : ∀ sortX rule r, intoShapeVectors k x sortX rule r o = intoShapeVectors k x sortX rule r o'
  separate : ∀ rule, intoSeparateVectors k x rule o = intoSeparateVectors k x rule o'

theorem sameResults_of_perm (k : Config) (x : Externals) {o o' : OverlayB} (hp : o.Perm o')
    (hne : ∀ s ∈ o, isNotEmpty s.c = true) : SameResults k x o o' where
  overlay r rule cw minArea := by unfold overlayCustom; rw [buildBoolean_perm _ _ _ hp hne]
  graph rule := by unfold intoGraph; rw [buildBoolean_perm _ _ _ hp hne]
  vectors sortX rule r := by unfold intoShapeVectors; rw [buildBoolean_perm _ _ _ hp hne]
  separate rule := by unfold intoSeparateVectors; rw [buildBoolean_perm _ _ _ hp hne]

theorem given_nonempty (cs : List (ShapeType × List Pt)) :
    ∀ s ∈ (cs.flatMap fun x => (appendContour x.1 x.2 : List (Seg CountBool))), isNotEmpty s.c = true := by
  intro s hs
  obtain ⟨c, _, hc⟩ := List.mem_flatMap.1 hs
  exact appendContour_nonempty _ _ s hc

/-- C53: two sequences of calls that hand over the same contours with the same roles - in whatever order,
grouped into whatever contours, shapes and lists of shapes - give the same results. -/
theorem C53_builder (k : Config) (x : Externals) (calls calls' : List AddCall)
    (h : (givenBy calls).Perm (givenBy calls')) :
    SameResults k x (OverlayB.new.run calls) (OverlayB.new.run calls') := by
  rw [run_eq, run_eq]
  exact sameResults_of_perm k x (h.flatMap_right _) (given_nonempty _)

/-- C53: they are the results for the subject contours and the clip contours. With it everything proved
of `overlaySegments subj clip` holds for every sequence of calls. -/
theorem C53_roles (k : Config) (x : Externals) (calls : List AddCall) :
    SameResults k x (OverlayB.new.run calls)
      (overlaySegments (withRole .subject (givenBy calls)) (withRole .clip (givenBy calls))) := by
  rw [run_eq]
  exact sameResults_of_perm k x (flatMap_roles _) (given_nonempty _)

/-- C53: the constructors register the contours they are given. -/
theorem C53_constructors (subj clip : List Pt) (subjs clips : List (List Pt)) (subjss clipss : List (List (List Pt))) :
    OverlayB.withContour subj clip = overlaySegments [subj] [clip] ∧
      OverlayB.withContours subjs clips = overlaySegments subjs clips ∧
      OverlayB.withShapes subjss clipss = overlaySegments subjss.flatten clipss.flatten := by
  refine ⟨?_, ?_, ?_⟩
  · simp [OverlayB.withContour, OverlayB.addContour, OverlayB.new, overlaySegments]
  · unfold OverlayB.withContours; rw [addContours_eq, addContours_eq]; rfl
  · unfold OverlayB.withShapes; rw [addShapes_eq, addShapes_eq]; rfl

/-- C53: the four `simplify` operations are the rule `Subject` on the contours given. -/
theorem C53_simplify (k : Config) (x : Externals) (rule : FillRule) (cw : Bool) (minArea : Nat) (path : List Pt)
    (paths : List (List Pt)) (shapes : List (List (List Pt))) :
    simplifyPath k x path rule cw minArea = overlayCustom k x .subject rule cw minArea (overlaySegments [path] []) ∧
      simplifyPaths k x paths rule cw minArea = overlayCustom k x .subject rule cw minArea (overlaySegments paths []) ∧
      simplifyShape k x paths rule cw minArea = overlayCustom k x .subject rule cw minArea (overlaySegments paths []) ∧
      simplifyShapes k x shapes rule cw minArea =
        overlayCustom k x .subject rule cw minArea (overlaySegments shapes.flatten []) := by
  refine ⟨?_, ?_, ?_, ?_⟩
  · simp [simplifyPath, OverlayB.addContour, OverlayB.new, overlaySegments]
  · simp [simplifyPaths, addContours_eq, OverlayB.new, overlaySegments]
  · simp [simplifyShape, OverlayB.addShape, addContours_eq, OverlayB.new, overlaySegments]
  · simp [simplifyShapes, addShapes_eq, OverlayB.new, overlaySegments]

/-- A square in three calls, and the same with the calls and the contours in another order. -/
example : (givenBy [.contours [[⟨0, 0⟩, ⟨4, 0⟩, ⟨4, 4⟩], [⟨1, 1⟩, ⟨9, 0⟩, ⟨9, 9⟩]] .subject, .contour [⟨2, 2⟩, ⟨3, 2⟩, ⟨3, 3⟩] .clip]).Perm
    (givenBy [.pathIter [⟨1, 1⟩, ⟨9, 0⟩, ⟨9, 9⟩] .subject, .shapes [[[⟨2, 2⟩, ⟨3, 2⟩, ⟨3, 3⟩]]] .clip, .shape [[⟨0, 0⟩, ⟨4, 0⟩, ⟨4, 4⟩]] .subject]) := by
  decide

/-! ### strings -/

/-- The edges one piece of string geometry adds. -/
def StrItem.edges : StrItem → List (Seg CountStr)
  | .shape c => appendContour .subject c
  | .line l => addStringLine l.1 l.2
  | .path p => addStringPath p
  | .contour c => addStringContour c

theorem foldl_items {α : Type} (add : StringB → α → StringB) (item : α → StrItem)
    (h : ∀ o a, add o a = o ++ (item a).edges) (o : StringB) (l : List α) :
    l.foldl add o = o ++ (l.map item).flatMap StrItem.edges := by
  induction l generalizing o with
  | nil => simp
  | cons a l ih => rw [List.foldl_cons, ih, h, List.map_cons, List.flatMap_cons, List.append_assoc]

theorem addShapeContours_eq (o : StringB) (cs : List (List Pt)) :
    o.addShapeContours cs = o ++ (cs.map StrItem.shape).flatMap StrItem.edges :=
  foldl_items StringB.addShapeContour .shape (fun _ _ => rfl) o cs

theorem strAddShapes_eq (o : StringB) (ss : List (List (List Pt))) :
    o.addShapes ss = o ++ (ss.flatten.map StrItem.shape).flatMap StrItem.edges := by
  unfold StringB.addShapes
  induction ss generalizing o with
  | nil => simp
  | cons s ss ih =>
    rw [List.foldl_cons, ih, addShapeContours_eq, List.flatten_cons, List.map_append, List.flatMap_append,
      List.append_assoc]

theorem strCall_eq (o : StringB) (c : StrCall) : o.call c = o ++ c.given.flatMap StrItem.edges := by
  cases c with
  | shapeContour c => simp [StringB.call, StringB.addShapeContour, StrCall.given, StrItem.edges]
  | shapeContours cs => exact addShapeContours_eq o cs
  | shapes ss => exact strAddShapes_eq o ss
  | line l => simp [StringB.call, StringB.addLine, StrCall.given, StrItem.edges]
  | lines ls => exact foldl_items StringB.addLine .line (fun _ _ => rfl) o ls
  | path p => simp [StringB.call, StringB.addPath, StrCall.given, StrItem.edges]
  | contour c => simp [StringB.call, StringB.addContour, StrCall.given, StrItem.edges]
  | paths ps => exact foldl_items StringB.addPath .path (fun _ _ => rfl) o ps
  | contours cs => exact foldl_items StringB.addContour .contour (fun _ _ => rfl) o cs

theorem strRun_eq (o : StringB) (calls : List StrCall) :
    o.run calls = o ++ (strGivenBy calls).flatMap StrItem.edges := by
  unfold StringB.run strGivenBy
  induction calls generalizing o with
  | nil => simp
  | cons c l ih => rw [List.foldl_cons, ih, strCall_eq, List.flatMap_cons, List.flatMap_append, List.append_assoc]

theorem edges_perm (l : List StrItem) :
    (l.flatMap StrItem.edges).Perm (stringSegments (shapesIn l) (pathsIn l) (contoursIn l)) := by
  induction l with
  | nil => exact List.Perm.refl _
  | cons i l ih =>
    rw [List.flatMap_cons]
    refine (ih.append_left _).trans ?_
    have hline : ∀ p q : Pt, addStringPath [p, q] = addStringLine p q := by
      intro p q; simp [addStringPath, stringLoop]
    unfold stringSegments
    cases i with
    | shape c =>
      have e : shapesIn (.shape c :: l) = c :: shapesIn l := rfl
      have e1 : pathsIn (.shape c :: l) = pathsIn l := rfl
      have e2 : contoursIn (.shape c :: l) = contoursIn l := rfl
      rw [e, e1, e2, List.flatMap_cons]
      simp only [List.append_assoc]
      exact List.Perm.refl _
    | line p =>
      have e : shapesIn (.line p :: l) = shapesIn l := rfl
      have e1 : pathsIn (.line p :: l) = [p.1, p.2] :: pathsIn l := rfl
      have e2 : contoursIn (.line p :: l) = contoursIn l := rfl
      rw [e, e1, e2, List.flatMap_cons, hline]
      simp only [List.append_assoc, StrItem.edges]
      rw [← List.append_assoc, ← List.append_assoc (List.flatMap _ (shapesIn l))]
      exact List.perm_append_comm.append_right _
    | path p =>
      have e : shapesIn (.path p :: l) = shapesIn l := rfl
      have e1 : pathsIn (.path p :: l) = p :: pathsIn l := rfl
      have e2 : contoursIn (.path p :: l) = contoursIn l := rfl
      rw [e, e1, e2, List.flatMap_cons]
      simp only [List.append_assoc, StrItem.edges]
      rw [← List.append_assoc, ← List.append_assoc (List.flatMap _ (shapesIn l))]
      exact List.perm_append_comm.append_right _
    | contour c =>
      have e : shapesIn (.contour c :: l) = shapesIn l := rfl
      have e1 : pathsIn (.contour c :: l) = pathsIn l := rfl
      have e2 : contoursIn (.contour c :: l) = c :: contoursIn l := rfl
      rw [e, e1, e2, List.flatMap_cons]
      simp only [StrItem.edges]
      rw [← List.append_assoc, ← List.append_assoc (_ ++ _)]
      exact List.perm_append_comm.append_right _

theorem items_nonempty (l : List StrItem) : ∀ s ∈ l.flatMap StrItem.edges, isNotEmpty s.c = true := by
  intro s hs
  exact stringSegments_nonempty _ _ _ s ((edges_perm l).mem_iff.1 hs)

/-- All results of a `StringOverlay` agree: the clipped lines, the graph, the slices. -/
structure SameStrResults (k : StrConfig) (x : Externals) (order : List Pt → Bool) (o o' : StringB) : Prop where
  clip : ∀ clip rule, o.clipLines k x.sortE clip rule = o'.clipLines k x.sortE clip rule
  graph : ∀ rule, o.intoGraph k x.sortE rule = o'.intoGraph k x.sortE rule
  slice : ∀ rule, o.slice k x order rule = o'.slice k x order rule

theorem sameStrResults_of_perm (k : StrConfig) (x : Externals) (order : List Pt → Bool) {o o' : StringB} (hp : o.Perm o')
    (hne : ∀ s ∈ o, isNotEmpty s.c = true) : SameStrResults k x order o o' where
  clip clip rule := by unfold StringB.clipLines clipLines; rw [buildString_perm _ _ _ hp hne]
  graph rule := by unfold StringB.intoGraph stringGraph; rw [buildString_perm _ _ _ hp hne]
  slice rule := by unfold StringB.slice StringB.intoGraph stringGraph; rw [buildString_perm _ _ _ hp hne]

/-- C53 (strings): two sequences of calls that hand over the same shape contours, lines, paths and string
contours, in whatever order and grouping, give the same clipped lines, graph and slices. -/
theorem C53_string_builder (k : StrConfig) (x : Externals) (order : List Pt → Bool) (calls calls' : List StrCall)
    (h : (strGivenBy calls).Perm (strGivenBy calls')) :
    SameStrResults k x order (StringB.new.run calls) (StringB.new.run calls') := by
  rw [strRun_eq, strRun_eq]
  exact sameStrResults_of_perm k x order (h.flatMap_right _) (items_nonempty _)

/-- C53 (strings): they are the results for the shape contours, the open paths (a line is a path of two
points) and the closed string lines. -/
theorem C53_string_roles (k : StrConfig) (x : Externals) (order : List Pt → Bool) (calls : List StrCall) :
    SameStrResults k x order (StringB.new.run calls)
      (stringSegments (shapesIn (strGivenBy calls)) (pathsIn (strGivenBy calls)) (contoursIn (strGivenBy calls))) := by
  rw [strRun_eq]
  exact sameStrResults_of_perm k x order (edges_perm _) (items_nonempty _)

/-- The contours of what is cut or clipped. -/
def Cuttable.contours : Cuttable → List (List Pt)
  | .shapes ss => ss.flatten
  | .shape s => s
  | .contour c => [c]

/-- The open paths it is cut or clipped with. -/
def Cutter.lines' : Cutter → List (List Pt)
  | .line l => [[l.1, l.2]]
  | .lines ls => ls.map fun l => [l.1, l.2]
  | .path p => [p]
  | .paths ps => ps

theorem withShape_eq (s : Cuttable) : StringB.withShape s = s.contours.flatMap (appendContour .subject) := by
  cases s with
  | shapes ss =>
    simp only [StringB.withShape, strAddShapes_eq, StringB.new, Cuttable.contours, List.flatMap_map]
    rfl
  | shape s => simp [StringB.withShape, addShapeContours_eq, StringB.new, Cuttable.contours, List.flatMap_map, StrItem.edges]
  | contour c => simp [StringB.withShape, StringB.addShapeContour, StringB.new, Cuttable.contours]

theorem addCutter_eq (o : StringB) (c : Cutter) : o.addCutter c = o ++ c.lines'.flatMap addStringPath := by
  have hline : ∀ p q : Pt, addStringPath [p, q] = addStringLine p q := by
    intro p q; simp [addStringPath, stringLoop]
  cases c with
  | line l => simp [StringB.addCutter, StringB.addLine, Cutter.lines', hline]
  | lines ls =>
    have := foldl_items StringB.addLine StrItem.line (fun _ _ => rfl) o ls
    simp only [StringB.addCutter, StringB.addLines, this, Cutter.lines', List.flatMap_map, hline]
    rfl
  | path p => simp [StringB.addCutter, StringB.addPath, Cutter.lines']
  | paths ps =>
    have := foldl_items StringB.addPath StrItem.path (fun _ _ => rfl) o ps
    simp only [StringB.addCutter, StringB.addPaths, this, Cutter.lines', List.flatMap_map]
    rfl

/-- C53 (strings): the twelve `slice_by_*` and the twelve `clip_*` functions slice, respectively clip, the
contours of the shape by the given lines. -/
theorem C53_slice_clip (k : StrConfig) (x : Externals) (order : List Pt → Bool) (s : Cuttable) (c : Cutter)
    (rule : FillRule) (clip : ClipRule) :
    intSlice k x order s c rule =
        sliceBy x order rule k.st k.sr k.tree k.scan k.fuel s.contours c.lines' [] ∧
      intClip k x.sortE s c rule clip =
        clipLines clip rule k.st k.sr k.tree k.scan k.fuel x.sortE (stringSegments s.contours c.lines' []) := by
  have e : (StringB.withShape s).addCutter c = stringSegments s.contours c.lines' [] := by
    rw [addCutter_eq, withShape_eq]; simp [stringSegments]
  constructor
  · unfold intSlice sliceBy StringB.slice StringB.intoGraph; rw [e]
  · unfold intClip StringB.clipLines; rw [e]

example : (strGivenBy [.shapes [[[⟨0, 0⟩, ⟨4, 0⟩, ⟨4, 4⟩]]], .lines [(⟨0, 1⟩, ⟨9, 1⟩), (⟨0, 2⟩, ⟨9, 2⟩)]]).Perm
    (strGivenBy [.line (⟨0, 2⟩, ⟨9, 2⟩), .shapeContour [⟨0, 0⟩, ⟨4, 0⟩, ⟨4, 4⟩], .line (⟨0, 1⟩, ⟨9, 1⟩)]) := by
  decide

end IOverlay
