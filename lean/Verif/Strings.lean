/-
String overlay: adding lines, and clipping (string/overlay.rs, string/graph.rs, string/clip.rs).
-/
import Verif.Fragment
import Verif.Fill
import Verif.Graph

namespace IOverlay

/-! ### adding lines -/

/-- `StringOverlay::add_string_line`, string/overlay.rs:105-115: the edges pushed. -/
def addStringLine (a b : Pt) : List (Seg CountStr) :=
  if a < b then [⟨a, b, ⟨0, true, false⟩⟩]
  else if b < a then [⟨b, a, ⟨0, false, true⟩⟩]
  else []

/-- The loop of `add_string_path` / `add_string_contour`, string/overlay.rs:133-137 and 147-151. -/
def stringLoop : Pt → List Pt → List (Seg CountStr)
  | _, [] => []
  | a, b :: rest => addStringLine a b ++ stringLoop b rest

/-- `StringOverlay::add_string_path`, string/overlay.rs:129-138. -/
def addStringPath (path : List Pt) : List (Seg CountStr) :=
  if path.length < 2 then []
  else
    match path.head? with
    | some a => stringLoop a (path.drop 1)
    | none => []

/-- `StringOverlay::add_string_contour`, string/overlay.rs:143-152. -/
def addStringContour (contour : List Pt) : List (Seg CountStr) :=
  if contour.length < 2 then []
  else
    match contour.getLast? with
    | some a => stringLoop a contour
    | none => []

/-- The edges of a `StringOverlay` after adding shape contours, open paths and closed string contours,
string/overlay.rs:72-100, 155-169. (The shape contours use the counts of `ShapeType::Subject`.) -/
def stringSegments (shape paths contours : List (List Pt)) : List (Seg CountStr) :=
  shape.flatMap (appendContour .subject) ++ paths.flatMap addStringPath ++ contours.flatMap addStringContour

/-! ### clipping -/

/-- string/clip.rs:76-78 -/
def CLIP_BACK : Fill := 0b01#8 <<< 2
def CLIP_FORWARD : Fill := 0b10#8 <<< 2
def CLIP_ALL : Fill := CLIP_BACK ||| CLIP_FORWARD

/-- `OverlayLink::visit_if_possible`, string/clip.rs:80-97: the new link when the move is possible. -/
def Link.visitIfPossible (l : Link) (isForward : Bool) : Option Link :=
  if isForward then
    if l.fill &&& CLIP_FORWARD == CLIP_FORWARD then some { l with fill := l.fill &&& ~~~CLIP_FORWARD } else none
  else
    if l.fill &&& CLIP_BACK == CLIP_BACK then some { l with fill := l.fill &&& ~~~CLIP_BACK } else none

/-- `OverlayLink::visit`, string/clip.rs:99-108: the new link and the returned flag. -/
def Link.visitClip (l : Link) : Link × Bool :=
  if l.fill &&& CLIP_BACK == CLIP_BACK then ({ l with fill := l.fill &&& ~~~CLIP_BACK }, true)
  else ({ l with fill := 0#8 }, false)

/-- `OverlayLink::other`, core/link.rs:26-29, id and point. -/
def Link.otherEnd (l : Link) (node : Nat) : Nat × Pt := if l.aId = node then (l.bId, l.b) else (l.aId, l.a)

/-- `find_next_point`, string/clip.rs:62-73, on the indices of the node; the new links and the next
point. Indices out of range are skipped (they do not occur, C20). -/
def findNextPoint (aId : Nat) (a : Pt) (isOut : Bool) : List Nat → List Link → Option (List Link × Nat × Pt)
  | [], _ => none
  | i :: is, links =>
    match links[i]? with
    | none => findNextPoint aId a isOut is links
    | some l =>
      let b := l.otherEnd aId
      let isForward := isOut == decide (b.2 < a)
      match l.visitIfPossible isForward with
      | some l' => some (links.set i l', b)
      | none => findNextPoint aId a isOut is links

/-- The inner loop of `into_clip_string_lines`, string/clip.rs:45-48. `none`: fuel ran out. -/
def clipWalk (nodes : List Node) (isOut : Bool) :
    Nat → Nat → Pt → List Link → List Pt → Option (List Link × List Pt)
  | 0, _, _, _, _ => none
  | fuel + 1, aId, a, links, path =>
    match findNextPoint aId a isOut ((nodes[aId]?).elim [] Node.indices) links with
    | none => some (links, path)
    | some (links', b) => clipWalk nodes isOut fuel b.1 b.2 links' (path ++ [b.2])

/-- The loop of `into_clip_string_lines`, string/clip.rs:32-57. `none`: fuel ran out. -/
def clipLoop (nodes : List Node) : Nat → Nat → List Link → List (List Pt) → Option (List (List Pt))
  | 0, _, _, _ => none
  | fuel + 1, i, links, paths =>
    match links[i]? with
    | none => some paths
    | some l =>
      if l.fill &&& CLIP_ALL == 0#8 then clipLoop nodes fuel (i + 1) links paths
      else
        let v := l.visitClip
        (clipWalk nodes v.2 (2 * links.length + 1) l.bId l.b (links.set i v.1) [l.a, l.b]).bind fun r =>
          clipLoop nodes fuel i r.1 (paths ++ [if v.2 then r.2 else r.2.reverse])

/-- `into_clip_string_lines`, string/clip.rs:24-59; enough steps for any graph (C29). -/
def clipStringLines (g : Graph) : Option (List (List Pt)) :=
  clipLoop g.nodes (3 * g.links.length + 1) 0 g.links []

/-- `build_string_with_clip_rule` / `build_string_all`, core/link.rs:62-83, with the inclusion filter as
a parameter. -/
def buildString (inc : Fill → Bool) (rule : FillRule) (st : Strategy) (sr : SnapRadius)
    (tree : TreeOracle CountStr) (sc : ScanOracle CountStr) (fuel : Nat)
    (segs : List (Seg CountStr)) : Option (List Link) :=
  if segs.isEmpty then some []
  else (splitSegments st sr tree fuel segs).map fun r =>
    if r.isEmpty then [] else buildLinks inc r (fillSweep sc (addAndFillStr rule) r)

/-- `StringOverlay::clip_string_lines_with_solver`, string/overlay.rs:190-193 (the graph is built by
the same function as for a boolean overlay, string/graph.rs:14-25). -/
def clipLines (clip : ClipRule) (rule : FillRule) (st : Strategy) (sr : SnapRadius) (tree : TreeOracle CountStr)
    (sc : ScanOracle CountStr) (fuel : Nat) (sortE : List End → List End) (segs : List (Seg CountStr)) :
    Option (List (List Pt)) :=
  (buildString (isClipIncluded clip) rule st sr tree sc fuel segs).bind fun links =>
    (Graph.new sortE links).bind clipStringLines

end IOverlay
