/-
Shifting the input: slicing and clipping commute with adding a vector to all points.
-/
import Verif.ShiftRun
import Verif.Props.Strings
import Verif.Slice

namespace IOverlay
open WindingCount
variable (v : Pt)

/-! ### slicing: the walks -/

theorem canMove_shift (g : Graph) (node : Nat) (cw : Bool) (fills : List Fill) (i : Nat) :
    canMove (g.shift v) node cw fills i = canMove g node cw fills i := by
  unfold canMove
  rw [links_shift]
  cases g.links[i]? with
  | none => rfl
  | some l =>
    cases fills[i]? with
    | none => rfl
    | some f =>
      simp only [Option.map_some]
      unfold Link.isMovePossible Link.shift
      simp only [shift_lt]

theorem sliceNearest_shift (g : Graph) (target node : Nat) (cw : Bool) (is : List Nat) (fills : List Fill) :
    sliceNearest (g.shift v) target node cw is fills = sliceNearest g target node cw is fills := by
  have hc : canMove (g.shift v) node cw fills = canMove g node cw fills := funext (canMove_shift v g node cw fills)
  unfold sliceNearest
  rw [hc]
  simp only
  split
  · rfl
  · split
    · rfl
    · rename_i x r _ _ y rest _
      rw [links_shift]
      cases g.links[target]? with
      | none => rfl
      | some t =>
        simp only [Option.map_some, Option.bind_some]
        rw [links_shift]
        cases g.links[x]? with
        | none => rfl
        | some lx =>
          simp only [Option.map_some, Option.bind_some, other_shift]
          have e1 : (t.shift v).aId = t.aId := rfl
          have e2 : (if (t.shift v).aId = node then ((t.shift v).a, (t.shift v).b) else ((t.shift v).b, (t.shift v).a)) =
              ((if t.aId = node then (t.a, t.b) else (t.b, t.a)).1.shift v, (if t.aId = node then (t.a, t.b) else (t.b, t.a)).2.shift v) := by
            rw [e1]; split <;> rfl
          rw [e2, nvNew_shift, addVectors_shift, Option.map_map]
          rfl

theorem moveMask_shift (l : Link) (node : Nat) (cw : Bool) : (l.shift v).moveMask node cw = l.moveMask node cw := by
  unfold Link.moveMask Link.shift
  simp only [shift_lt]

theorem visitFill_shift (l : Link) (f : Fill) (node : Nat) (cw : Bool) : (l.shift v).visitFill f node cw = l.visitFill f node cw := by
  unfold Link.visitFill
  rw [moveMask_shift]

theorem sliceWalk_shift (g : Graph) (cw : Bool) (last : Nat) : ∀ (fuel node link : Nat) (fills : List Fill) (c : List Pt),
    sliceWalk (g.shift v) cw last fuel node link fills (movedPath v c) =
      (sliceWalk g cw last fuel node link fills c).map fun r => (movedPath v r.1, r.2) := by
  intro fuel
  induction fuel with
  | zero =>
    intro node link fills c
    unfold sliceWalk
    split <;> rfl
  | succ n ih =>
    intro node link fills c
    unfold sliceWalk
    split
    · rfl
    · have en : (g.shift v).nodes = g.nodes := rfl
      simp only [sliceNearest_shift, en]
      cases sliceNearest g link node cw ((g.nodes[node]?).elim [] Node.indices) fills with
      | none => rfl
      | some i =>
        simp only [Option.bind_some, links_shift]
        cases g.links[i]? with
        | none => rfl
        | some l =>
          simp only [Option.map_some, Option.bind_some]
          cases fills[i]? with
          | none => rfl
          | some f =>
            have e : ∀ p : Pt, movedPath v c ++ [p.shift v] = movedPath v (c ++ [p]) := by
              intro p; simp [movedPath]
            simp only [Option.bind_some, visitFill_shift]
            simp only [Link.shift, e, ih]
            split <;> rfl

theorem slicePath_shift (g : Graph) (fuel start : Nat) (cw : Bool) (fills : List Fill) :
    slicePath (g.shift v) fuel start cw fills = (slicePath g fuel start cw fills).map fun r => (movedPath v r.1, r.2) := by
  unfold slicePath
  rw [links_shift]
  cases g.links[start]? with
  | none => rfl
  | some l =>
    simp only [Option.map_some, Option.bind_some]
    cases fills[start]? with
    | none => rfl
    | some f =>
      simp only [Option.bind_some, visitFill_shift]
      rw [← sliceWalk_shift]
      rfl

theorem sliceLoop_shift (g : Graph) : ∀ (fuel i : Nat) (fills : List Fill) (walks : List (Bool × List Pt)),
    sliceLoop (g.shift v) fuel i fills (walks.map fun w => (w.1, movedPath v w.2)) =
      (sliceLoop g fuel i fills walks).map (List.map fun w => (w.1, movedPath v w.2)) := by
  intro fuel
  induction fuel with
  | zero => intros; rfl
  | succ n ih =>
    intro i fills walks
    unfold sliceLoop
    cases fills[i]? with
    | none => rfl
    | some f =>
      simp only
      split
      · exact ih _ _ _
      · have el : (g.shift v).links.length = g.links.length := by simp [Graph.shift]
        rw [el, slicePath_shift]
        cases slicePath g (2 * g.links.length) i (f &&& SUBJ_TOP == SUBJ_TOP) fills with
        | none => rfl
        | some r =>
          simp only [Option.map_some, Option.bind_some]
          rw [← ih]
          simp

theorem sliceWalks_shift (g : Graph) :
    sliceWalks (g.shift v) = (sliceWalks g).map (List.map fun w => (w.1, movedPath v w.2)) := by
  unfold sliceWalks
  rw [← sliceLoop_shift]
  have e1 : (g.shift v).links.length = g.links.length := by simp [Graph.shift]
  have e2 : filterSlice (g.shift v).links = filterSlice g.links := by
    unfold filterSlice Graph.shift
    rw [List.map_map]
    rfl
  rw [e1, e2]
  rfl

/-! ### slicing: loops and shapes -/

def LoopState.shift (s : LoopState) : LoopState :=
  ⟨s.result.map (movedPath v), movedPath v s.path, s.map.map fun e => (e.1.shift v, e.2)⟩

theorem lookup_shift (p : Pt) (l : List (Pt × Nat)) : (l.map fun e => (e.1.shift v, e.2)).lookup (p.shift v) = l.lookup p := by
  induction l with
  | nil => rfl
  | cons e l ih =>
    rw [List.map_cons, List.lookup_cons, List.lookup_cons, ih]
    have : (p.shift v == e.1.shift v) = (p == e.1) := by
      rw [Bool.eq_iff_iff]; simp
    rw [this]

theorem validateArea_shift (m : Nat) (c : List Pt) : validateArea m (movedPath v c) = validateArea m c := by
  unfold validateArea
  rw [doubleArea_shift]

theorem loopStep_shift (m : Nat) (s : LoopState) (p : Pt) :
    loopStep m (s.shift v) (p.shift v) = (loopStep m s p).map (LoopState.shift v) := by
  unfold loopStep
  have e1 : (s.shift v).map.lookup (p.shift v) = s.map.lookup p := lookup_shift v p s.map
  have e2 : (s.shift v).path.length = s.path.length := by simp [LoopState.shift]
  rw [e1, e2]
  cases s.map.lookup p with
  | none =>
    simp only [Option.map_some]
    simp [LoopState.shift, movedPath]
  | some pos =>
    simp only
    split
    · rfl
    · split
      · simp [LoopState.shift, movedPath]
      · have e3 : (s.shift v).path.drop pos ++ [p.shift v] = movedPath v (s.path.drop pos ++ [p]) := by
          simp [LoopState.shift, movedPath]
        rw [e3, validateArea_shift, Option.map_some]
        split <;> simp [LoopState.shift, movedPath]

theorem splitLoops_shift (m : Nat) (w : List Pt) : splitLoops m (movedPath v w) = (splitLoops m w).map (List.map (movedPath v)) := by
  have h : ∀ (w : List Pt) (s : LoopState), (movedPath v w).foldlM (loopStep m) (s.shift v) =
      (w.foldlM (loopStep m) s).map (LoopState.shift v) := by
    intro w
    induction w with
    | nil => intro s; rfl
    | cons p w ih =>
      intro s
      rw [show movedPath v (p :: w) = p.shift v :: movedPath v w from rfl, List.foldlM_cons, List.foldlM_cons, loopStep_shift]
      cases loopStep m s p with
      | none => rfl
      | some s' => exact ih s'
  unfold splitLoops
  have e0 : (⟨[], [], []⟩ : LoopState) = LoopState.shift v ⟨[], [], []⟩ := rfl
  conv_lhs => rw [e0, h]
  rw [Option.map_map, Option.map_map]
  congr 1
  funext s
  simp only [Function.comp]
  have e2 : (s.shift v).path.length = s.path.length := by simp [LoopState.shift]
  rw [e2]
  split <;> simp [LoopState.shift]

theorem movedPath_reverse (c : List Pt) : (movedPath v c).reverse = movedPath v c.reverse := by
  simp [movedPath]

section
variable {order order' : List Pt → Bool} (ho : ∀ c, order' (movedPath v c) = order c)
include ho

theorem classifyLoops_shift (cw d : Bool) (ps : List (List Pt)) : classifyLoops order' cw d (ps.map (movedPath v)) =
    ((classifyLoops order cw d ps).1.map (movedPath v), (classifyLoops order cw d ps).2.map (movedPath v)) := by
  unfold classifyLoops
  simp only [List.filter_map, List.map_map, Function.comp_def, ho, Prod.mk.injEq]
  constructor <;> apply List.map_congr_left <;> intro c _ <;> split <;> simp [movedPath_reverse]

theorem assembleSlice_shift (cw : Bool) (m : Nat) (ws : List (Bool × List Pt)) :
    assembleSlice order' cw m (ws.map fun w => (w.1, movedPath v w.2)) =
      (assembleSlice order cw m ws).map fun r => (r.1.map (movedPath v), r.2.map (movedPath v)) := by
  induction ws with
  | nil => rfl
  | cons w ws ih =>
    rw [List.map_cons]
    unfold assembleSlice
    rw [splitLoops_shift, ih]
    cases splitLoops m w.2 with
    | none => rfl
    | some ps =>
      simp only [Option.map_some, Option.bind_some]
      cases assembleSlice order cw m ws with
      | none => rfl
      | some r =>
        simp only [Option.map_some, classifyLoops_shift v ho, List.map_append]

end

section
variable {x x' : Externals} {v}

theorem scanJoin_shift (hx : MovesWith v x x') (shapes : List (List (List Pt))) (holes : List (List Pt))
    (as : List IdSeg) (cw : Bool) :
    scanJoin x'.bind x'.sortI (shapes.map (List.map (movedPath v))) (holes.map (movedPath v)) (as.map (·.shift v)) cw =
      (scanJoin x.bind x.sortI shapes holes as cw).map (List.map (List.map (movedPath v))) := by
  unfold scanJoin bindSolve
  rw [List.head?_map, List.getLast?_map]
  cases as.head? with
  | none => rfl
  | some f =>
    cases as.getLast? with
    | none => rfl
    | some la =>
      simp only [Option.map_some, Option.bind_some, List.length_map]
      have e1 : (f.shift v).a.x = f.a.x + v.x := rfl
      have e2 : (la.shift v).a.x = la.a.x + v.x := rfl
      rw [e1, e2, floorSegments_shift, hx.sortI]
      have := bindLoop_shift (o := x.bind) (o' := x'.bind) hx.lookup shapes.length as
        (x.sortI (floorSegments shapes holes f.a.x la.a.x cw)) [] (List.replicate as.length 0)
      rw [List.map_nil] at this
      rw [this]
      cases bindLoop x.bind shapes.length as (x.sortI (floorSegments shapes holes f.a.x la.a.x cw)) []
        (List.replicate as.length 0) with
      | none => rfl
      | some ps =>
        simp only [Option.bind_some]
        split
        · rw [← pushHoles_shift]
          congr 1
          rw [List.zip_map_left]
          rfl
        · rfl

theorem holeAnchors_shift (holes : List (List Pt)) : ∀ k : Nat,
    (((holes.map (movedPath v)).zipIdx k).mapM fun h => (leftBottomSegment h.1).map fun v => (⟨v.1, v.2, ⟨true, h.2⟩⟩ : IdSeg)) =
      ((holes.zipIdx k).mapM fun h => (leftBottomSegment h.1).map fun v => (⟨v.1, v.2, ⟨true, h.2⟩⟩ : IdSeg)).map
        (List.map fun s => s.shift v) := by
  induction holes with
  | nil => intro k; rfl
  | cons h holes ih =>
    intro k
    rw [List.map_cons, List.zipIdx_cons, List.zipIdx_cons, List.mapM_cons, List.mapM_cons, ih, leftBottom_shift]
    cases leftBottomSegment h with
    | none => rfl
    | some s =>
      cases (holes.zipIdx (k + 1)).mapM fun h => (leftBottomSegment h.1).map fun v => (⟨v.1, v.2, ⟨true, h.2⟩⟩ : IdSeg) with
      | none => rfl
      | some ss => rfl

theorem joinUnsortedHoles_shift (hx : MovesWith v x x') (shapes : List (List (List Pt))) (holes : List (List Pt)) (cw : Bool) :
    joinUnsortedHoles x'.bind x'.sortI (shapes.map (List.map (movedPath v))) (holes.map (movedPath v)) cw =
      (joinUnsortedHoles x.bind x.sortI shapes holes cw).map (List.map (List.map (movedPath v))) := by
  unfold joinUnsortedHoles
  simp only [List.isEmpty_map]
  split
  · rfl
  · have key : (((holes.map (movedPath v)).zipIdx.mapM fun h => (leftBottomSegment h.1).map fun v =>
          (⟨v.1, v.2, ⟨true, h.2⟩⟩ : IdSeg)).bind fun segs =>
            scanJoin x'.bind x'.sortI (shapes.map (List.map (movedPath v))) (holes.map (movedPath v)) (x'.sortI segs) cw) =
        ((holes.zipIdx.mapM fun h => (leftBottomSegment h.1).map fun v => (⟨v.1, v.2, ⟨true, h.2⟩⟩ : IdSeg)).bind
          fun segs => scanJoin x.bind x.sortI shapes holes (x.sortI segs) cw).map (List.map (List.map (movedPath v))) := by
      rw [holeAnchors_shift]
      cases holes.zipIdx.mapM fun h => (leftBottomSegment h.1).map fun v => (⟨v.1, v.2, ⟨true, h.2⟩⟩ : IdSeg) with
      | none => rfl
      | some segs =>
        simp only [Option.map_some, Option.bind_some]
        rw [hx.sortI, scanJoin_shift hx]
    rcases shapes with _ | ⟨s, _ | ⟨t, shapes⟩⟩
    · exact key
    · simp
    · exact key

/-- Slicing a moved graph is slicing the graph, moved. -/
theorem sliceShapes_shift (hx : MovesWith v x x') {order order' : List Pt → Bool} (ho : ∀ c, order' (movedPath v c) = order c)
    (cw : Bool) (m : Nat) (g : Graph) :
    sliceShapes x' order' cw m (g.shift v) = (sliceShapes x order cw m g).map (List.map (List.map (movedPath v))) := by
  unfold sliceShapes
  rw [sliceWalks_shift]
  cases sliceWalks g with
  | none => rfl
  | some ws =>
    simp only [Option.map_some, Option.bind_some]
    rw [assembleSlice_shift v ho]
    cases assembleSlice order cw m ws with
    | none => rfl
    | some r =>
      simp only [Option.map_some, Option.bind_some]
      rw [← joinUnsortedHoles_shift hx]
      congr 1
      simp [Function.comp_def]

end

/-! ### clipping -/

theorem otherEnd_shift (l : Link) (n : Nat) : (l.shift v).otherEnd n = ((l.otherEnd n).1, (l.otherEnd n).2.shift v) := by
  unfold Link.otherEnd Link.shift
  simp only
  split <;> rfl

theorem visitIfPossible_shift (l : Link) (f : Bool) : (l.shift v).visitIfPossible f = (l.visitIfPossible f).map (Link.shift v) := by
  unfold Link.visitIfPossible Link.shift
  simp only
  split_ifs <;> rfl

theorem visitClip_shift (l : Link) : (l.shift v).visitClip = ((l.visitClip).1.shift v, (l.visitClip).2) := by
  unfold Link.visitClip Link.shift
  simp only
  split_ifs <;> rfl

theorem findNextPoint_shift (aId : Nat) (a : Pt) (out : Bool) (is : List Nat) (links : List Link) :
    findNextPoint aId (a.shift v) out is (links.map (Link.shift v)) =
      (findNextPoint aId a out is links).map fun r => (r.1.map (Link.shift v), r.2.1, r.2.2.shift v) := by
  induction is with
  | nil => rfl
  | cons i is ih =>
    unfold findNextPoint
    rw [List.getElem?_map]
    cases links[i]? with
    | none => exact ih
    | some l =>
      simp only [Option.map_some, otherEnd_shift, shift_lt, visitIfPossible_shift]
      cases l.visitIfPossible (out == decide ((l.otherEnd aId).2 < a)) with
      | none => exact ih
      | some l' => simp [List.map_set]

theorem clipWalk_shift (nodes : List Node) (out : Bool) : ∀ (fuel aId : Nat) (a : Pt) (links : List Link) (path : List Pt),
    clipWalk nodes out fuel aId (a.shift v) (links.map (Link.shift v)) (movedPath v path) =
      (clipWalk nodes out fuel aId a links path).map fun r => (r.1.map (Link.shift v), movedPath v r.2) := by
  intro fuel
  induction fuel with
  | zero => intros; rfl
  | succ n ih =>
    intro aId a links path
    unfold clipWalk
    rw [findNextPoint_shift]
    cases findNextPoint aId a out ((nodes[aId]?).elim [] Node.indices) links with
    | none => rfl
    | some r =>
      obtain ⟨links', b⟩ := r
      simp only [Option.map_some]
      rw [← ih]
      congr 1
      simp [movedPath]

theorem clipLoop_shift (nodes : List Node) : ∀ (fuel i : Nat) (links : List Link) (paths : List (List Pt)),
    clipLoop nodes fuel i (links.map (Link.shift v)) (paths.map (movedPath v)) =
      (clipLoop nodes fuel i links paths).map (List.map (movedPath v)) := by
  intro fuel
  induction fuel with
  | zero => intros; rfl
  | succ n ih =>
    intro i links paths
    unfold clipLoop
    rw [List.getElem?_map]
    cases links[i]? with
    | none => rfl
    | some l =>
      simp only [Option.map_some, List.length_map]
      have ef : (l.shift v).fill = l.fill := rfl
      rw [ef]
      split
      · exact ih _ _ _
      · rw [visitClip_shift]
        simp only
        rw [← List.map_set]
        have := clipWalk_shift v nodes l.visitClip.2 (2 * links.length + 1) l.bId l.b (links.set i l.visitClip.1) [l.a, l.b]
        change (clipWalk nodes l.visitClip.2 (2 * links.length + 1) l.bId (l.b.shift v)
          ((links.set i l.visitClip.1).map (Link.shift v)) (movedPath v [l.a, l.b])).bind _ = _
        rw [this]
        cases clipWalk nodes l.visitClip.2 (2 * links.length + 1) l.bId l.b (links.set i l.visitClip.1) [l.a, l.b] with
        | none => rfl
        | some r =>
          simp only [Option.map_some, Option.bind_some]
          rw [← ih]
          congr 1
          rw [List.map_append, List.map_singleton, movedPath_reverse]
          split <;> rfl

/-- Clipping a moved graph is clipping the graph, moved. -/
theorem clipStringLines_shift (g : Graph) : clipStringLines (g.shift v) = (clipStringLines g).map (List.map (movedPath v)) := by
  unfold clipStringLines
  rw [← clipLoop_shift]
  have : (g.shift v).links.length = g.links.length := by simp [Graph.shift]
  rw [this]
  rfl

end IOverlay
