/-
C65 for the returned lists: contour for contour, point for point.
-/
import Verif.ShiftRun
import Verif.Props.Shift
import Verif.Props.Attach

namespace IOverlay
variable {C : Type} (v : Pt)

theorem spans_shift (f : Seg C) (X : Int) : (f.shift v).spans (X + v.x) ↔ f.spans X := by
  unfold Seg.spans
  simp

theorem ht_shift (f : Seg C) (X : Int) : ht (f.shift v) (((X + v.x : Int)) : ℚ) = ht f (X : ℚ) + v.y := by
  unfold ht
  simp only [seg_shift_a, seg_shift_b, shift_x, shift_y]
  push_cast
  have e : (f.b.x : ℚ) + v.x - (f.a.x + v.x) = f.b.x - f.a.x := by ring
  have e2 : (f.b.y : ℚ) + v.y - (f.a.y + v.y) = f.b.y - f.a.y := by ring
  have e3 : (X : ℚ) + v.x - (f.a.x + v.x) = X - f.a.x := by ring
  rw [e, e2, e3]
  ring

theorem botW_shift (φ : C → Int) (segs : List (Seg C)) (s : Seg C) :
    botW φ (segs.map (·.shift v)) (s.shift v) = botW φ segs s := by
  unfold botW wsum
  rw [List.map_map]
  congr 1
  apply List.map_congr_left
  intro f _
  simp only [Function.comp, seg_shift_c, seg_shift_a, seg_shift_b, shift_inj, area2_shift]
  congr 1
  have h1 := spans_shift v f s.a.x
  have h2 := ht_shift v f s.a.x
  rw [shift_x, shift_y, h1, h2]
  push_cast
  rw [add_lt_add_iff_right]

theorem botP_shift (segs : List (Seg CountBool)) (s : Seg CountBool) :
    botP (segs.map (·.shift v)) (s.shift v) = botP segs s := by
  unfold botP
  rw [botW_shift, botW_shift]

theorem resultLinks_shift (rule : FillRule) (r : OverlayRule) (segs : List (Seg CountBool)) :
    resultLinks rule r (segs.map (·.shift v)) = (resultLinks rule r segs).map (Link.shift v) := by
  unfold resultLinks keptB
  rw [List.filter_map, List.map_map, List.map_map]
  simp only [Function.comp_def, botP_shift]
  rfl

theorem moved_eq (cs : List (List Pt)) : moved v cs = cs.map (movedPath v) := rfl

/-- C65 (returned lists): the shapes returned for moved contours are the shapes returned for the given contours, moved:
the same contours in the same order with the same starting points, whatever strategies are used, with any area limit. -/
theorem C65_shapes {k k' : Config} {x x' : Externals} (ht : k.tree.Ok) (ht' : k'.tree.Ok) (hsc : k.scan.Ok) (hsc' : k'.scan.Ok)
    (hsr : k'.sr = k.sr) (hx : MovesWith v x x') (r : OverlayRule) (rule : FillRule) (cw : Bool) (minArea : Nat)
    (subj clip : List (List Pt)) (hf : FragFor k subj clip) (hf' : FragFor k' (moved v subj) (moved v clip))
    (segs segs' : List (Seg CountBool)) (h : nodedEdges k.st k.sr k.tree k.fuel (overlaySegments subj clip) = some segs)
    (h' : nodedEdges k'.st k'.sr k'.tree k'.fuel (overlaySegments (moved v subj) (moved v clip)) = some segs') :
    overlayCustom k' x' r rule cw minArea (overlaySegments (moved v subj) (moved v clip)) =
      (overlayCustom k x r rule cw minArea (overlaySegments subj clip)).map fun shapes => shapes.map (moved v) := by
  have e : segs' = segs.map (·.shift v) := by
    rw [hsr] at h'
    exact C65_noded v ht ht' hf (hsr ▸ hf' : FragOk k'.st k.sr _) h h'
  rw [overlay_resultLinks k' x' hsc' r rule cw minArea (noded_edgesOk ht' hf'),
    overlay_resultLinks k x hsc r rule cw minArea (noded_edgesOk ht hf), h, h', e, Option.bind_some, Option.bind_some,
    resultLinks_shift, graphNew_shift v hx.sortE]
  cases Graph.new x.sortE (resultLinks rule r segs) with
  | none => rfl
  | some g =>
    simp only [Option.map_some, Option.bind_some]
    rw [extract_shift hx]
    have : (g.shift v).links.length = g.links.length := by simp [Graph.shift]
    rw [this]
    rfl

theorem fillOf_shift (rule : FillRule) (segs : List (Seg CountBool)) (s : Seg CountBool) :
    fillOf rule (segs.map (·.shift v)) (s.shift v) = fillOf rule segs s := by
  unfold fillOf
  rw [botW_shift, botW_shift]
  rfl

/-- C65 (prebuilt graphs): extraction from the graph of the moved contours likewise. -/
theorem C65_graph_shapes {k k' : Config} {x x' : Externals} (ht : k.tree.Ok) (ht' : k'.tree.Ok) (hsc : k.scan.Ok)
    (hsc' : k'.scan.Ok) (hsr : k'.sr = k.sr) (hx : MovesWith v x x') (r : OverlayRule) (rule : FillRule) (cw : Bool)
    (minArea : Nat) (subj clip : List (List Pt)) (hf : FragFor k subj clip)
    (hf' : FragFor k' (moved v subj) (moved v clip)) (g g' : Graph)
    (h : intoGraph k x rule (overlaySegments subj clip) = some g)
    (h' : intoGraph k' x' rule (overlaySegments (moved v subj) (moved v clip)) = some g') :
    extractShapesCustom x' g' r cw minArea = (extractShapesCustom x g r cw minArea).map fun shapes => shapes.map (moved v) := by
  unfold intoGraph at h h'
  obtain ⟨links, h1, h2⟩ := Option.bind_eq_some_iff.1 h
  obtain ⟨links', h1', h2'⟩ := Option.bind_eq_some_iff.1 h'
  obtain ⟨segs, -, n, el⟩ := buildBoolean_spec ht hsc hf h1
  obtain ⟨segs', -, n', el'⟩ := buildBoolean_spec ht' hsc' hf' h1'
  have e : segs' = segs.map (·.shift v) := by
    rw [hsr] at n'
    exact C65_noded v ht ht' hf (hsr ▸ hf' : FragOk k'.st k.sr _) n n'
  have e2 : links' = links.map (Link.shift v) := by
    rw [el, el', e, List.filter_map, List.map_map, List.map_map]
    simp only [Function.comp_def, fillOf_shift]
    rfl
  rw [e2, graphNew_shift v hx.sortE, h2] at h2'
  obtain rfl := Option.some.inj h2'
  unfold extractShapesCustom
  have : ((g.shift v).links.map fun l => maskFilter r l.fill) = g.links.map fun l => maskFilter r l.fill := by
    unfold Graph.shift
    rw [List.map_map]
    rfl
  rw [this, extract_shift hx]
  rfl

/-! ### examples -/

theorem vCmp_shift (s t : Seg C) : vCmp (s.shift v) (t.shift v) = vCmp s t := by
  unfold vCmp clockOrder
  simp

/-- Plain sorts and a plain search see relative positions only. -/
theorem exRaw_moves : MovesWith v exRaw exRaw where
  sortE := by
    have hi : ∀ (e : End) (l : List End), insertEndPt (endShift v e) (l.map (endShift v)) = (insertEndPt e l).map (endShift v) := by
      intro e l
      induction l with
      | nil => rfl
      | cons f l ih =>
        rw [List.map_cons]
        unfold insertEndPt
        rw [ih]
        simp only [endShift_snd, shift_lt]
        split <;> rfl
    intro l
    change insertionEndSort _ = (insertionEndSort l).map _
    unfold insertionEndSort
    induction l with
    | nil => rfl
    | cons e l ih => rw [List.map_cons, List.foldr_cons, List.foldr_cons, ih, hi]
  sortI := stableSort_shift v (cmpByAThenAngle_shift v)
  lookup := by
    intro es t key
    change listBind.lookup _ _ _ = listBind.lookup es t key
    unfold listBind
    simp only
    rw [List.filter_map]
    have e : ((fun e : IdSeg => decide (t + v.x < e.b.x) && decide (vCmp e (key.shift v) = .lt)) ∘ fun e => e.shift v) =
        fun e => decide (t < e.b.x) && decide (vCmp e key = .lt) := by
      funext e
      simp [Function.comp, vCmp_shift]
    rw [e]
    cases es.filter fun e => decide (t < e.b.x) && decide (vCmp e key = .lt) with
    | nil => rfl
    | cons e rest =>
      simp only [List.map_cons, Option.some.injEq]
      have : ∀ (l : List IdSeg) (b : IdSeg),
          (l.map fun e => e.shift v).foldl (fun b e' => if vCmp e' b = .lt then b else e') (b.shift v) =
            (l.foldl (fun b e' => if vCmp e' b = .lt then b else e') b).shift v := by
        intro l
        induction l with
        | nil => intro b; rfl
        | cons f l ih =>
          intro b
          rw [List.map_cons, List.foldl_cons, List.foldl_cons, vCmp_shift, ← ih]
          congr 1
          split <;> rfl
      rw [this]
      rfl
  clean := fun c => rfl

/-- Two shapes with three holes, as in `Props/Attach.lean`. -/
def exNestedSquares : List (List Pt) := [sq 0 0 40 40, sq 5 5 30 15, sq 10 8 20 12, sq 10 20 20 30]

example : overlayCustom exConfig exRaw .subject .evenOdd false 0 (overlaySegments (moved ⟨7, -100⟩ exNestedSquares) []) =
    some [[[⟨7, -60⟩, ⟨7, -100⟩, ⟨47, -100⟩, ⟨47, -60⟩], [⟨12, -95⟩, ⟨12, -85⟩, ⟨37, -85⟩, ⟨37, -95⟩],
      [⟨17, -80⟩, ⟨17, -70⟩, ⟨27, -70⟩, ⟨27, -80⟩]], [[⟨17, -88⟩, ⟨17, -92⟩, ⟨27, -92⟩, ⟨27, -88⟩]]] := by
  obtain ⟨s, h⟩ := Option.isSome_iff_exists.1 (show (nodedEdges exConfig.st exConfig.sr exConfig.tree exConfig.fuel
    (overlaySegments exNestedSquares [])).isSome = true by decide +kernel)
  obtain ⟨s', h'⟩ := Option.isSome_iff_exists.1 (show (nodedEdges exConfig.st exConfig.sr exConfig.tree exConfig.fuel
    (overlaySegments (moved ⟨7, -100⟩ exNestedSquares) (moved ⟨7, -100⟩ []))).isSome = true by decide +kernel)
  have := C65_shapes (k := exConfig) (k' := exConfig) ⟨7, -100⟩ bruteTree_ok bruteTree_ok listScanOracle_ok listScanOracle_ok rfl (exRaw_moves _) .subject .evenOdd
    false 0 exNestedSquares [] (FragOk.list _ _) (FragOk.list _ _) s s' h h'
  rw [show overlayCustom exConfig exRaw .subject .evenOdd false 0 (overlaySegments exNestedSquares []) =
    some [[[⟨0, 40⟩, ⟨0, 0⟩, ⟨40, 0⟩, ⟨40, 40⟩], [⟨5, 5⟩, ⟨5, 15⟩, ⟨30, 15⟩, ⟨30, 5⟩], [⟨10, 20⟩, ⟨10, 30⟩, ⟨20, 30⟩, ⟨20, 20⟩]],
      [[⟨10, 12⟩, ⟨10, 8⟩, ⟨20, 8⟩, ⟨20, 12⟩]]] by decide +kernel] at this
  exact this

end IOverlay
