/-
Exchanging subject and clip: every phase commutes with the exchange.
-/
import Verif.Run
import Verif.Overlay

namespace IOverlay
open WindingCount
variable {C : Type}

/-- The edge with its count changed. -/
def Seg.mapC (f : C → C) (s : Seg C) : Seg C := ⟨s.a, s.b, f s.c⟩

/-- A change of counts that commutes with the operations on counts. -/
structure CountHom [WindingCount C] (f : C → C) : Prop where
  nonempty : ∀ c, isNotEmpty (f c) = isNotEmpty c
  add : ∀ c d, f (add c d) = add (f c) (f d)
  invert : ∀ c, f (invert c) = invert (f c)

section
variable [WindingCount C] {f : C → C}

theorem insertSeg_mapC (s : Seg C) (l : List (Seg C)) :
    insertSeg (s.mapC f) (l.map (Seg.mapC f)) = (insertSeg s l).map (Seg.mapC f) := by
  induction l with
  | nil => rfl
  | cons t l ih =>
    rw [List.map_cons]
    unfold insertSeg
    have : (s.mapC f).le (t.mapC f) = s.le t := rfl
    rw [this]
    split
    · rfl
    · rw [ih]; rfl

theorem sortSegs_mapC (l : List (Seg C)) : sortSegs (l.map (Seg.mapC f)) = (sortSegs l).map (Seg.mapC f) := by
  induction l with
  | nil => rfl
  | cons s l ih =>
    change insertSeg (s.mapC f) (sortSegs (l.map (Seg.mapC f))) = _
    rw [ih, insertSeg_mapC]; rfl

theorem mergeLoop_mapC (hf : CountHom f) (l : List (Seg C)) : ∀ prev : Seg C,
    mergeLoop (prev.mapC f) (l.map (Seg.mapC f)) = (mergeLoop prev l).map (Seg.mapC f) := by
  induction l with
  | nil =>
    intro prev
    have : isNotEmpty (prev.mapC f).c = isNotEmpty prev.c := hf.nonempty prev.c
    rw [List.map_nil]
    simp only [mergeLoop]
    rw [this]
    by_cases e : isNotEmpty prev.c = true
    · rw [if_pos e, if_pos e]; rfl
    · rw [if_neg e, if_neg e]; rfl
  | cons s l ih =>
    intro prev
    rw [List.map_cons]
    unfold mergeLoop
    have h1 : (prev.mapC f).sameX (s.mapC f) = prev.sameX s := rfl
    have h2 : isNotEmpty (prev.mapC f).c = isNotEmpty prev.c := hf.nonempty prev.c
    rw [h1, h2]
    split
    · rw [← ih]
      congr 1
      unfold Seg.mapC
      simp only
      rw [hf.add]
    · split
      · rw [ih]; rfl
      · exact ih s

theorem mergeScan_mapC (hf : CountHom f) (l : List (Seg C)) : ∀ prev : Seg C,
    mergeScan (prev.mapC f) (l.map (Seg.mapC f)) = (mergeScan prev l).map (Seg.mapC f) := by
  induction l with
  | nil => intro prev; rfl
  | cons s l ih =>
    intro prev
    rw [List.map_cons]
    unfold mergeScan
    have h1 : (prev.mapC f).sameX (s.mapC f) = prev.sameX s := rfl
    rw [h1]
    split
    · exact mergeLoop_mapC hf (s :: l) prev
    · rw [ih]; rfl

theorem mergeIfNeeded_mapC (hf : CountHom f) (l : List (Seg C)) :
    mergeIfNeeded (l.map (Seg.mapC f)) = (mergeIfNeeded l).map (Seg.mapC f) := by
  cases l with
  | nil => rfl
  | cons s l => exact mergeScan_mapC hf l s

theorem createValidate_mapC (hf : CountHom f) (a b : Pt) (c : C) :
    createValidate a b (f c) = (createValidate a b c).mapC f := by
  unfold createValidate Seg.mapC
  split
  · rfl
  · simp only; rw [hf.invert]

theorem chainSegs_mapC (hf : CountHom f) (c : C) (b : Pt) (l : List Pt) : ∀ p,
    chainSegs (f c) b p l = (chainSegs c b p l).map (Seg.mapC f) := by
  induction l with
  | nil => intro p; unfold chainSegs; rw [createValidate_mapC hf]; rfl
  | cons m l ih => intro p; unfold chainSegs; rw [createValidate_mapC hf, ih]; rfl

theorem splitSeg_mapC (hf : CountHom f) (marks : List Mark) (i : Nat) (s : Seg C) :
    splitSeg marks i (s.mapC f) = (splitSeg marks i s).map (Seg.mapC f) := by
  unfold splitSeg
  split
  · rfl
  · exact chainSegs_mapC hf _ _ _ _

theorem splitAll_mapC (hf : CountHom f) (marks : List Mark) (l : List (Seg C)) : ∀ i,
    splitAll marks i (l.map (Seg.mapC f)) = (splitAll marks i l).map (Seg.mapC f) := by
  induction l with
  | nil => intro i; rfl
  | cons s l ih =>
    intro i
    rw [List.map_cons]
    unfold splitAll
    rw [ih, splitSeg_mapC hf, List.map_append]

theorem applyMarks_mapC (hf : CountHom f) (marks : List Mark) (l : List (Seg C)) :
    applyMarks marks (l.map (Seg.mapC f)) = (applyMarks marks l).map (Seg.mapC f) := by
  unfold applyMarks
  rw [splitAll_mapC hf, sortSegs_mapC, mergeIfNeeded_mapC hf]

omit [WindingCount C] in
theorem listScan_mapC (i : Nat) (e : XSeg) (l : List (Seg C)) : ∀ j,
    listScan i e j (l.map (Seg.mapC f)) = listScan i e j l := by
  induction l with
  | nil => intro j; rfl
  | cons s l ih =>
    intro j
    rw [List.map_cons]
    unfold listScan
    rw [ih]
    rfl

omit [WindingCount C] in
theorem listPairs_mapC (l : List (Seg C)) : listPairs (l.map (Seg.mapC f)) = listPairs l := by
  unfold listPairs
  suffices h : ∀ i, listPairsFrom i (l.map (Seg.mapC f)) = listPairsFrom i l from h 0
  induction l with
  | nil => intro i; rfl
  | cons s l ih =>
    intro i
    rw [List.map_cons]
    unfold listPairsFrom
    rw [ih, listScan_mapC]
    rfl

/-- The tree sees only the edges, not their counts (split/solver_tree.rs uses `x_segment` only). -/
structure TreeOracle.Blind (tree : TreeOracle C) (f : C → C) : Prop where
  canBuild : ∀ l, tree.canBuild (l.map (Seg.mapC f)) = tree.canBuild l
  pairs : ∀ l, tree.pairs (l.map (Seg.mapC f)) = tree.pairs l

theorem splitLoop_mapC (hf : CountHom f) (st : Strategy) {tree : TreeOracle C} (ht : tree.Blind f) : ∀ (n : Nat)
    (m : Mode) (sr : SnapRadius) (l : List (Seg C)),
    splitLoop st tree n m sr (l.map (Seg.mapC f)) = (splitLoop st tree n m sr l).map (List.map (Seg.mapC f)) := by
  intro n
  induction n with
  | zero => intro m sr l; cases m <;> rfl
  | succ n ih =>
    intro m sr l
    cases m with
    | list =>
      unfold splitLoop
      rw [List.length_map, listPairs_mapC]
      split
      · rfl
      · dsimp only
        split
        · rfl
        · rw [applyMarks_mapC hf, List.length_map]
          split
          · split
            · exact ih _ _ _
            · exact ih _ _ _
          · rfl
    | tree =>
      unfold splitLoop
      rw [ht.canBuild]
      split
      · exact ih _ _ _
      · exact ih _ _ _
    | treeLoop =>
      unfold splitLoop
      rw [List.length_map, ht.pairs]
      split
      · rfl
      · dsimp only
        split
        · rfl
        · rw [applyMarks_mapC hf]
          split
          · exact ih _ _ _
          · rfl

end

section
variable {f : C → C}

/-- Fragments see only the edges, not their counts. -/
theorem fragRound_mapC (g : Grid) (radius : Int) (l : List (Seg C)) :
    fragRound g radius (l.map (Seg.mapC f)) = fragRound g radius l := by
  have h1 : allFragments g (l.map (Seg.mapC f)) = allFragments g l := by
    unfold allFragments
    rw [List.zipIdx_map, List.flatMap_map]
    rfl
  have h2 : groups g (l.map (Seg.mapC f)) = groups g l := by
    unfold groups
    rw [h1]
  have h3 : ∀ b, borders g (l.map (Seg.mapC f)) b = borders g l b := by
    intro b
    unfold borders
    rw [List.zipIdx_map, List.filterMap_map]
    rfl
  unfold fragRound
  simp only [h2, h3]

theorem Grid.new_mapC (l : List (Seg C)) : Grid.new (l.map (Seg.mapC f)) = Grid.new l := by
  cases l with
  | nil => rfl
  | cons s l =>
    simp only [List.map_cons, Grid.new, List.length_cons, List.length_map, List.foldl_map]
    rfl

theorem fragLoop_mapC [WindingCount C] (hf : CountHom f) (g : Grid) : ∀ (n : Nat) (sr : SnapRadius) (l : List (Seg C)),
    fragLoop g n sr (l.map (Seg.mapC f)) = (fragLoop g n sr l).map (List.map (Seg.mapC f)) := by
  intro n
  induction n with
  | zero => intro sr l; rfl
  | succ n ih =>
    intro sr l
    unfold fragLoop
    rw [List.length_map, fragRound_mapC]
    split
    · rfl
    · dsimp only
      split
      · rfl
      · rw [applyMarks_mapC hf]
        split
        · exact ih _ _
        · rfl

end

/-! ### the exchange -/

/-- Exchange of the two counts. -/
def CountBool.swap (c : CountBool) : CountBool := ⟨c.clip, c.subj⟩

theorem swap_hom : CountHom CountBool.swap where
  nonempty c := by
    simp only [isNotEmpty, CountBool.swap]
    exact Bool.or_comm _ _
  add c d := rfl
  invert c := rfl

/-- Exchange of the subject and clip flags. -/
def swapFill (f : Fill) : Fill := ((f &&& 0b0011#8) <<< 2) ||| ((f &&& 0b1100#8) >>> 2)

theorem swapFill_mk (a b c d : Bool) : swapFill (mkFill a b c d) = mkFill c d a b := by
  revert a b c d; decide

/-- The rule that does the same with the roles of subject and clip exchanged. -/
def OverlayRule.mirror : OverlayRule → OverlayRule
  | .subject => .clip
  | .clip => .subject
  | .intersect => .intersect
  | .union => .union
  | .difference => .inverseDifference
  | .inverseDifference => .difference
  | .xor => .xor

theorem isIncluded_swap (r : OverlayRule) (a b c d : Bool) :
    isIncluded r.mirror (mkFill c d a b) = isIncluded r (mkFill a b c d) := by
  cases r <;> revert a b c d <;> decide

theorem isFillTop_swap (r : OverlayRule) (a b c d : Bool) :
    isFillTop r.mirror (mkFill c d a b) = isFillTop r (mkFill a b c d) := by
  cases r <;> revert a b c d <;> decide

theorem withAB_mapC (f : CountBool → CountBool) (p q : Pt) (d i : CountBool) :
    withAB p q (f d) (f i) = (withAB p q d i).mapC f := by
  unfold withAB Seg.mapC
  split <;> rfl

theorem appendPath_mapC (f : CountBool → CountBool) (d i : CountBool) (pts : List Pt) :
    appendPath (f d) (f i) pts = (appendPath d i pts).map (Seg.mapC f) := by
  have hm : ∀ (rest : List Pt) (p0 p1 : Pt),
      mainLoop (f d) (f i) p0 p1 rest =
        ((mainLoop d i p0 p1 rest).1.map (Seg.mapC f), (mainLoop d i p0 p1 rest).2) := by
    intro rest
    induction rest with
    | nil => intro p0 p1; rfl
    | cons p rest ih =>
      intro p0 p1
      unfold mainLoop
      split
      · exact ih _ _
      · dsimp only
        rw [ih, withAB_mapC]; rfl
  rcases pts with _ | ⟨q0, _ | ⟨p1, rest⟩⟩
  · rfl
  · rfl
  · unfold appendPath
    dsimp only
    rw [hm, List.map_append]
    congr 1
    unfold closePath
    simp only [withAB_mapC]
    split
    · rfl
    · split <;> rfl
    · split <;> rfl
    · split <;> rfl

theorem appendContour_swap (t : List Pt) :
    (appendContour .clip t : List (Seg CountBool)) = (appendContour .subject t).map (Seg.mapC CountBool.swap) ∧
    (appendContour .subject t : List (Seg CountBool)) = (appendContour .clip t).map (Seg.mapC CountBool.swap) :=
  ⟨appendPath_mapC CountBool.swap (ofShape ShapeType.subject).1 (ofShape ShapeType.subject).2 t,
    appendPath_mapC CountBool.swap (ofShape ShapeType.clip).1 (ofShape ShapeType.clip).2 t⟩

theorem overlaySegments_swap (subj clip : List (List Pt)) :
    ((overlaySegments subj clip : List (Seg CountBool)).map (Seg.mapC CountBool.swap)).Perm
      (overlaySegments clip subj) := by
  unfold overlaySegments
  rw [List.map_append, List.map_flatMap, List.map_flatMap]
  have e1 : (fun t => ((appendContour .subject t : List (Seg CountBool)).map (Seg.mapC CountBool.swap))) =
      appendContour .clip := by
    funext t; exact (appendContour_swap t).1.symm
  have e2 : (fun t => ((appendContour .clip t : List (Seg CountBool)).map (Seg.mapC CountBool.swap))) =
      appendContour .subject := by
    funext t; exact (appendContour_swap t).2.symm
  rw [e1, e2]
  exact List.perm_append_comm

theorem splitSegments_swap (st : Strategy) (sr : SnapRadius) {tree : TreeOracle CountBool}
    (ht : tree.Blind CountBool.swap) (fuel : Nat) (subj clip : List (List Pt)) :
    splitSegments st sr tree fuel (overlaySegments clip subj) =
      (splitSegments st sr tree fuel (overlaySegments subj clip)).map (List.map (Seg.mapC CountBool.swap)) := by
  have e : mergeIfNeeded (sortSegs (overlaySegments clip subj : List (Seg CountBool))) =
      (mergeIfNeeded (sortSegs (overlaySegments subj clip : List (Seg CountBool)))).map (Seg.mapC CountBool.swap) := by
    rw [← mergeIfNeeded_mapC swap_hom, ← sortSegs_mapC]
    refine mergeIfNeeded_perm ?_ (sortSegs_sorted _) (sortSegs_sorted _) ?_
    · exact (sortSegs_perm _).trans ((overlaySegments_swap subj clip).symm.trans (sortSegs_perm _).symm)
    · intro s hs
      exact overlaySegments_nonempty clip subj s ((sortSegs_perm _).mem_iff.1 hs)
  unfold splitSegments
  dsimp only
  rw [e, List.length_map]
  split
  · exact splitLoop_mapC swap_hom st ht _ _ _ _
  · split
    · unfold fragSplit
      rw [Grid.new_mapC]
      split
      · exact splitLoop_mapC swap_hom st ht _ _ _ _
      · exact fragLoop_mapC swap_hom _ _ _ _
    · exact splitLoop_mapC swap_hom st ht _ _ _ _

theorem planar_swap {segs : List (Seg CountBool)} (hp : Planar segs) : Planar (segs.map (Seg.mapC CountBool.swap)) := by
  refine ⟨?_, ?_, ?_⟩
  · intro t ht
    obtain ⟨s, hs, rfl⟩ := List.mem_map.1 ht
    exact hp.lt s hs
  · rw [List.pairwise_map]
    exact hp.sorted
  · unfold Noded
    rw [List.pairwise_map]
    exact hp.noded

theorem closed_swap {segs : List (Seg CountBool)} (hs : Closed CountBool.subj segs) (hc : Closed CountBool.clip segs) :
    Closed CountBool.subj (segs.map (Seg.mapC CountBool.swap)) ∧
    Closed CountBool.clip (segs.map (Seg.mapC CountBool.swap)) := by
  constructor <;> intro f
  · rw [← hc f]; unfold segSum; rw [List.map_map]; rfl
  · rw [← hs f]; unfold segSum; rw [List.map_map]; rfl

theorem botW_swap (segs : List (Seg CountBool)) (s : Seg CountBool) :
    botW CountBool.subj (segs.map (Seg.mapC CountBool.swap)) (s.mapC CountBool.swap) = botW CountBool.clip segs s ∧
    botW CountBool.clip (segs.map (Seg.mapC CountBool.swap)) (s.mapC CountBool.swap) = botW CountBool.subj segs s := by
  unfold botW wsum
  constructor
  · rw [List.map_map]; rfl
  · rw [List.map_map]; rfl

theorem fillOf_swap (rule : FillRule) (segs : List (Seg CountBool)) (s : Seg CountBool) :
    fillOf rule (segs.map (Seg.mapC CountBool.swap)) (s.mapC CountBool.swap) = swapFill (fillOf rule segs s) := by
  unfold fillOf
  rw [swapFill_mk, (botW_swap segs s).1, (botW_swap segs s).2]
  rfl

/-- The link with other flags. -/
def Link.mapF (h : Fill → Fill) (l : Link) : Link := { l with fill := h l.fill }

theorem buildBoolean_swap {rule : FillRule} {st : Strategy} {sr : SnapRadius} {inc inc' : Fill → Bool}
    (hinc : ∀ a b c d : Bool, inc' (mkFill c d a b) = inc (mkFill a b c d))
    {tree : TreeOracle CountBool} (ht : tree.Ok) (hb : tree.Blind CountBool.swap) {sc : ScanOracle CountBool}
    (hsc : sc.Ok) (fuel : Nat) (subj clip : List (List Pt))
    (hf : FragOk st sr (overlaySegments subj clip : List (Seg CountBool))) :
    buildBoolean inc' rule st sr tree sc fuel (overlaySegments clip subj) =
      (buildBoolean inc rule st sr tree sc fuel (overlaySegments subj clip)).map
        (List.map (Link.mapF swapFill)) := by
  unfold buildBoolean
  have hemp : (overlaySegments clip subj : List (Seg CountBool)).isEmpty =
      (overlaySegments subj clip : List (Seg CountBool)).isEmpty := by
    have := (overlaySegments_swap subj clip).length_eq
    rw [List.length_map] at this
    rw [Bool.eq_iff_iff, List.isEmpty_iff_length_eq_zero, List.isEmpty_iff_length_eq_zero, this]
  rw [hemp]
  split
  · rfl
  · rw [splitSegments_swap st sr hb, Option.map_map, Option.map_map]
    rcases hr : splitSegments st sr tree fuel (overlaySegments subj clip) with _ | segs
    · rfl
    · obtain ⟨hp, b1, b2, -⟩ := overlay_planar ht hf hr
      have hp' := planar_swap hp
      obtain ⟨b1', b2'⟩ := closed_swap b1 b2
      simp only [Option.map_some, Function.comp]
      congr 1
      rw [List.isEmpty_map]
      split
      · rfl
      · rw [fillSweep_map rule hp' b1' b2' sc hsc, fillSweep_map rule hp b1 b2 sc hsc, buildLinks_map, buildLinks_map,
          List.filter_map, List.map_map, List.map_map]
        have : (fun s => inc' (fillOf rule (segs.map (Seg.mapC CountBool.swap)) s)) ∘
            Seg.mapC CountBool.swap = fun s => inc (fillOf rule segs s) := by
          funext s
          simp only [Function.comp]
          rw [fillOf_swap]
          unfold fillOf
          rw [swapFill_mk, hinc]
        rw [this]
        apply List.map_congr_left
        intro s _
        simp only [Function.comp]
        rw [fillOf_swap]; rfl

/-! ### the graph and the extraction do not depend on the flags -/

section
variable {h : Fill → Fill}

theorem modify_mapF (F G : Link → Link) (hFG : ∀ l, F (l.mapF h) = (G l).mapF h) (ls : List Link) (i : Nat) :
    (ls.map (Link.mapF h)).modify i F = (ls.modify i G).map (Link.mapF h) := by
  apply List.ext_getElem?
  intro j
  rw [List.getElem?_modify, List.getElem?_map, List.getElem?_map, List.getElem?_modify]
  rcases ls[j]? with _ | l
  · split <;> rfl
  · simp only [Option.map_some]
    split
    · simp [hFG]
    · simp

theorem foldl_modify_mapF (F G : Link → Link) (hFG : ∀ l, F (l.mapF h) = (G l).mapF h) (is : List Nat) : ∀ ls : List Link,
    is.foldl (fun ls i => ls.modify i F) (ls.map (Link.mapF h)) =
      (is.foldl (fun ls i => ls.modify i G) ls).map (Link.mapF h) := by
  induction is with
  | nil => intro ls; rfl
  | cons i is ih =>
    intro ls
    rw [List.foldl_cons, List.foldl_cons, modify_mapF F G hFG, ih]

theorem assignIds_mapF (gs : List (List Nat × List Nat)) : ∀ (k : Nat) (ls : List Link),
    assignIds k gs (ls.map (Link.mapF h)) = (assignIds k gs ls).map (Link.mapF h) := by
  induction gs with
  | nil => intro k ls; rfl
  | cons g gs ih =>
    intro k ls
    obtain ⟨ga, gb⟩ := g
    unfold assignIds
    dsimp only
    rw [foldl_modify_mapF _ (fun l => { l with aId := k }) (fun _ => rfl),
      foldl_modify_mapF _ (fun l => { l with bId := k }) (fun _ => rfl), ih]

/-- The graph with other flags. -/
def Graph.mapF (h : Fill → Fill) (g : Graph) : Graph := ⟨g.links.map (Link.mapF h), g.nodes⟩

theorem graphNew_mapF (sortE : List End → List End) (links : List Link) :
    Graph.new sortE (links.map (Link.mapF h)) = (Graph.new sortE links).map (Graph.mapF h) := by
  cases links with
  | nil => rfl
  | cons l0 ls =>
    unfold Graph.new
    rw [List.map_cons]
    dsimp only
    have ea : ((l0.mapF h :: ls.map (Link.mapF h)).zipIdx.map fun x => ((x.2, x.1.a) : End)) =
        (l0 :: ls).zipIdx.map fun x => (x.2, x.1.a) := by
      rw [← List.map_cons, List.zipIdx_map, List.map_map]; rfl
    have eb : ((l0.mapF h :: ls.map (Link.mapF h)).zipIdx.map fun x => ((x.2, x.1.b) : End)) =
        (l0 :: ls).zipIdx.map fun x => (x.2, x.1.b) := by
      rw [← List.map_cons, List.zipIdx_map, List.map_map]; rfl
    have e0 : (l0.mapF h).a = l0.a := rfl
    have e1 : (l0.mapF h).b = l0.b := rfl
    rw [ea, eb, e0, e1, Option.map_map]
    congr 1
    funext gs
    simp only [Function.comp, Graph.mapF]
    rw [← List.map_cons, assignIds_mapF]

variable (g : Graph)

theorem links_mapF (i : Nat) : (g.mapF h).links[i]? = (g.links[i]?).map (Link.mapF h) := by
  unfold Graph.mapF; rw [List.getElem?_map]

theorem addVectors_mapF (node : Nat) (is : List Nat) : ∀ s,
    addVectors (g.mapF h) node is s = addVectors g node is s := by
  induction is with
  | nil => intro s; rfl
  | cons i is ih =>
    intro s
    unfold addVectors
    rw [links_mapF, Option.bind_map]
    congr 1
    funext l
    exact ih _

theorem findNearest_mapF (target node : Nat) (cw : Bool) (is : List Nat) (vis : List Bool) :
    findNearest (g.mapF h) target node cw is vis = findNearest g target node cw is vis := by
  unfold findNearest
  split
  · rfl
  · rfl
  · rw [links_mapF, Option.bind_map]
    congr 1
    funext t
    simp only [Function.comp]
    rw [links_mapF, Option.bind_map]
    congr 1
    funext lx
    simp only [Function.comp]
    rw [addVectors_mapF]; rfl

theorem nextLink_mapF (link node : Nat) (cw : Bool) (vis : List Bool) :
    nextLink (g.mapF h) link node cw vis = nextLink g link node cw vis := by
  unfold nextLink
  congr 1
  funext nd
  cases nd with
  | bridge i j => rfl
  | cross l => exact findNearest_mapF g link node cw l vis

theorem walk_mapF (cw : Bool) (last : Nat) : ∀ (fuel node link : Nat) (vis : List Bool) (c : List Pt),
    walk (g.mapF h) cw last fuel node link vis c = walk g cw last fuel node link vis c := by
  intro fuel
  induction fuel with
  | zero => intro node link vis c; unfold walk; rfl
  | succ fuel ih =>
    intro node link vis c
    unfold walk
    split
    · rfl
    · dsimp only
      rw [nextLink_mapF]
      congr 1
      funext l'
      rw [links_mapF, Option.bind_map]
      congr 1
      funext l
      simp only [Function.comp]
      split
      · rename_i e
        rw [if_pos (show l.aId = node from e)]; exact ih _ _ _ _
      · rename_i e
        rw [if_neg (show ¬ l.aId = node from e)]; exact ih _ _ _ _

theorem leftTopIndices_mapF (li : Nat) (vis : List Bool) (is : List Nat) : ∀ (top : Nat) (tl : Link),
    leftTopIndices (g.mapF h) li vis is top (tl.mapF h) = leftTopIndices g li vis is top tl := by
  induction is with
  | nil => intro top tl; rfl
  | cons i is ih =>
    intro top tl
    unfold leftTopIndices
    split
    · exact ih _ _
    · rw [links_mapF, Option.bind_map]
      congr 1
      funext l
      simp only [Function.comp]
      have e : (!(l.mapF h).isDirect || isClockwise (tl.mapF h).a (tl.mapF h).b (l.mapF h).b) =
        (!l.isDirect || isClockwise tl.a tl.b l.b) := rfl
      rw [e]
      split
      · exact ih _ _
      · split
        · exact ih _ _
        · exact ih _ _

theorem findLeftTop_mapF (li : Nat) (vis : List Bool) : findLeftTop (g.mapF h) li vis = findLeftTop g li vis := by
  unfold findLeftTop
  rw [links_mapF, Option.bind_map]
  congr 1
  funext top
  simp only [Function.comp]
  have e : (g.mapF h).nodes = g.nodes := rfl
  rw [e]
  congr 1
  funext nd
  cases nd with
  | bridge i j =>
    unfold leftTopBridge
    simp only
    rw [links_mapF, Option.bind_map]
    congr 1
    funext l0
    simp only [Function.comp]
    rw [links_mapF, Option.bind_map]
    rfl
  | cross l => exact leftTopIndices_mapF g li vis l li top

theorem extractLoop_mapF {r r' : OverlayRule} (hr : ∀ l ∈ g.links, isFillTop r' (h l.fill) = isFillTop r l.fill)
    (cw : Bool) (clean : List Pt → List Pt × Bool) (minArea : Nat) : ∀ (fuel li : Nat) (vis : List Bool) (e : Extracted),
    extractLoop (g.mapF h) r' cw clean minArea fuel li vis e = extractLoop g r cw clean minArea fuel li vis e := by
  intro fuel
  induction fuel with
  | zero => intro li vis e; rfl
  | succ fuel ih =>
    intro li vis e
    unfold extractLoop
    split
    · split
      · exact ih _ _ _
      · rw [findLeftTop_mapF]
        congr 1
        funext lt
        rw [links_mapF, Option.bind_map]
        rcases hl : g.links[lt]? with _ | l
        · rfl
        · simp only [Option.bind_some, Function.comp]
          have e1 : isFillTop r' (l.mapF h).fill = isFillTop r l.fill :=
            hr l (List.mem_of_getElem? hl)
          have e2 : ∀ d : Bool, StartPath.new d (l.mapF h) lt = StartPath.new d l lt := by
            intro d; unfold StartPath.new; rfl
          have e3 : (g.mapF h).links.length = g.links.length := by unfold Graph.mapF; simp
          rw [e1, e2, e3]
          unfold getContour
          rw [walk_mapF]
          congr 1
          funext rr
          split
          · exact ih _ _ _
          · congr 1
            funext e'
            exact ih _ _ _
    · rfl

theorem extract_mapF (x : Externals) {r r' : OverlayRule}
    (hr : ∀ l ∈ g.links, isFillTop r' (h l.fill) = isFillTop r l.fill) (cw : Bool) (minArea : Nat) (filter : List Bool) :
    extract x (g.mapF h) r' cw minArea filter = extract x g r cw minArea filter := by
  unfold extract extractContours
  rw [extractLoop_mapF g hr]

end

end IOverlay
