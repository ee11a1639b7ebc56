/-
C79: only the net number of times an edge is run through matters. Edges that contours run through once in each direction
vanish before anything else is done, so a polygon may be given as any of its triangulations, and a contour together with its
reverse has no effect.
-/
import Verif.Props.Direction

namespace IOverlay
open WindingCount

/-! ### specification -/

/-- How often the contours run from `a` to `b` minus how often they run from `b` to `a`; a contour runs straight from corner to
corner. -/
def netRuns (cs : List (List Pt)) (a b : Pt) : Int :=
  ((cs.flatMap fun c => polyEdges (corners c)).count (a, b) : Int) - (cs.flatMap fun c => polyEdges (corners c)).count (b, a)

/-- Every vertex of the polygon is a corner. -/
def AllCorners (c : List Pt) : Prop := ∀ t ∈ cyclicTriples c, isCorner t = true

instance (c : List Pt) : Decidable (AllCorners c) := by unfold AllCorners; infer_instance

/-! ### the merged edges are determined by the net counts -/

section
variable {C : Type} [LawfulCount C]

theorem merged_eq_of_keySum {l l' : List (Seg C)} (hne : ∀ s ∈ l, isNotEmpty s.c = true)
    (hne' : ∀ s ∈ l', isNotEmpty s.c = true) (h : ∀ a b, keySum l a b = keySum l' a b) :
    mergeIfNeeded (sortSegs l) = mergeIfNeeded (sortSegs l') := by
  apply strictSorted_ext (mergeIfNeeded_sorted _ (sortSegs_sorted l)) (mergeIfNeeded_sorted _ (sortSegs_sorted l'))
  intro s
  rw [mergeIfNeeded_mem _ (sortSegs_sorted l) fun s hs => hne s ((sortSegs_perm l).mem_iff.1 hs),
    mergeIfNeeded_mem _ (sortSegs_sorted l') fun s hs => hne' s ((sortSegs_perm l').mem_iff.1 hs),
    keySum_perm (sortSegs_perm l), keySum_perm (sortSegs_perm l'), h]

theorem splitSegments_of_keySum (st : Strategy) (sr : SnapRadius) (tree : TreeOracle C) (fuel : Nat) {l l' : List (Seg C)}
    (hne : ∀ s ∈ l, isNotEmpty s.c = true) (hne' : ∀ s ∈ l', isNotEmpty s.c = true)
    (h : ∀ a b, keySum l a b = keySum l' a b) : splitSegments st sr tree fuel l = splitSegments st sr tree fuel l' := by
  unfold splitSegments
  rw [merged_eq_of_keySum hne hne' h]

theorem splitLoop_nil (st : Strategy) (tree : TreeOracle C) (sr : SnapRadius) (n : Nat) :
    splitLoop st tree (n + 1) .list sr [] = some [] ∧ splitLoop st tree (n + 2) .tree sr [] = some [] := by
  have l : ∀ n, splitLoop st tree (n + 1) .list sr [] = some [] := fun n => by simp [splitLoop]
  refine ⟨l n, ?_⟩
  rw [splitLoop]
  split
  · simp [splitLoop]
  · exact l n

theorem splitSegments_nil (st : Strategy) (sr : SnapRadius) (tree : TreeOracle C) {fuel : Nat} (hfuel : 2 ≤ fuel)
    {l : List (Seg C)} (h : mergeIfNeeded (sortSegs l) = []) : splitSegments st sr tree fuel l = some [] := by
  obtain ⟨n, rfl⟩ : ∃ n, fuel = n + 2 := ⟨fuel - 2, by omega⟩
  unfold splitSegments
  rw [h]
  simp only [fragSplit, Grid.new]
  rw [(splitLoop_nil st tree sr (n + 1)).1, (splitLoop_nil st tree sr n).2]
  simp

theorem splitOrEmpty_of_keySum {β : Type} (st : Strategy) (sr : SnapRadius) (tree : TreeOracle C) {fuel : Nat} (hfuel : 2 ≤ fuel)
    (f : List (Seg C) → List β) {l l' : List (Seg C)}
    (hne : ∀ s ∈ l, isNotEmpty s.c = true) (hne' : ∀ s ∈ l', isNotEmpty s.c = true)
    (h : ∀ a b, keySum l a b = keySum l' a b) :
    (if l.isEmpty then some [] else (splitSegments st sr tree fuel l).map fun r => if r.isEmpty then [] else f r) =
      if l'.isEmpty then some [] else (splitSegments st sr tree fuel l').map fun r => if r.isEmpty then [] else f r := by
  have hm := merged_eq_of_keySum hne hne' h
  have nil : ∀ l : List (Seg C), l.isEmpty = true → mergeIfNeeded (sortSegs l) = [] := by
    intro l hl
    rw [List.isEmpty_iff.1 hl]; rfl
  by_cases e : l.isEmpty = true <;> by_cases e' : l'.isEmpty = true
  · rw [if_pos e, if_pos e']
  · rw [if_pos e, if_neg e', splitSegments_nil st sr tree hfuel (hm.symm.trans (nil l e))]; rfl
  · rw [if_neg e, if_pos e', splitSegments_nil st sr tree hfuel (hm.trans (nil l' e'))]; rfl
  · rw [if_neg e, if_neg e', splitSegments_of_keySum st sr tree fuel hne hne' h]
end

theorem sameResults_of_keySum (k : Config) (x : Externals) (hfuel : 2 ≤ k.fuel) {o o' : OverlayB}
    (hne : ∀ s ∈ o, isNotEmpty s.c = true) (hne' : ∀ s ∈ o', isNotEmpty s.c = true)
    (h : ∀ a b, keySum o a b = keySum o' a b) : SameResults k x o o' := by
  have e : ∀ inc rule, buildBoolean inc rule k.st k.sr k.tree k.scan k.fuel o =
      buildBoolean inc rule k.st k.sr k.tree k.scan k.fuel o' := fun inc rule =>
    splitOrEmpty_of_keySum k.st k.sr k.tree hfuel (fun r => buildLinks inc r (fillSweep k.scan (addAndFillBool rule) r)) hne hne' h
  constructor
  · intro r rule cw minArea; unfold overlayCustom; rw [e]
  · intro rule; unfold intoGraph; rw [e]
  · intro sortX rule r; unfold intoShapeVectors; rw [e]
  · intro rule; unfold intoSeparateVectors; rw [e]

theorem sameStrResults_of_keySum (k : StrConfig) (x : Externals) (order : List Pt → Bool) (hfuel : 2 ≤ k.fuel) {o o' : StringB}
    (hne : ∀ s ∈ o, isNotEmpty s.c = true) (hne' : ∀ s ∈ o', isNotEmpty s.c = true)
    (h : ∀ a b, keySum o a b = keySum o' a b) : SameStrResults k x order o o' := by
  have e : ∀ inc rule, buildString inc rule k.st k.sr k.tree k.scan k.fuel o =
      buildString inc rule k.st k.sr k.tree k.scan k.fuel o' := fun inc rule =>
    splitOrEmpty_of_keySum k.st k.sr k.tree hfuel (fun r => buildLinks inc r (fillSweep k.scan (addAndFillStr rule) r)) hne hne' h
  constructor
  · intro clip rule; unfold StringB.clipLines clipLines; rw [e]
  · intro rule; unfold StringB.intoGraph stringGraph; rw [e]
  · intro rule; unfold StringB.slice StringB.intoGraph stringGraph; rw [e]

/-! ### the counts of contours -/

theorem keySum_append {C : Type} [LawfulCount C] (l l' : List (Seg C)) (a b : Pt) :
    keySum (l ++ l') a b = add (keySum l a b) (keySum l' a b) := by
  induction l with
  | nil => exact (LawfulCount.zero_add' _).symm
  | cons s l ih =>
    rw [List.cons_append, keySum_cons, keySum_cons, ih]
    split
    · rw [LawfulCount.add_assoc']
    · rfl

theorem coincidentSum_append {C : Type} (φ : C → Int) (l l' : List (Seg C)) (a b : Pt) :
    coincidentSum φ (l ++ l') a b = coincidentSum φ l a b + coincidentSum φ l' a b := by
  unfold coincidentSum
  rw [List.filter_append, List.map_append, List.sum_append]

theorem coincidentSum_edges {C : Type} (φ : C → Int) (d i : C) (hi : φ i = - φ d) {a b : Pt} (hab : a < b) :
    ∀ es : List (Pt × Pt), coincidentSum φ (es.map fun e => withAB e.1 e.2 d i) a b =
      φ d * ((es.count (a, b) : Int) - es.count (b, a))
  | [] => by simp [coincidentSum]
  | e :: es => by
    have ih := coincidentSum_edges φ d i hi hab es
    have ne : a ≠ b := Pt.ne_of_lt hab
    rw [List.map_cons, ← List.singleton_append, coincidentSum_append, ih, List.count_cons, List.count_cons]
    have one : coincidentSum φ [withAB e.1 e.2 d i] a b =
        φ d * ((if e == (a, b) then 1 else 0) - if e == (b, a) then 1 else 0) := by
      obtain ⟨u, v⟩ := e
      simp only [coincidentSum, withAB, beq_iff_eq, Prod.mk.injEq]
      by_cases h : u < v
      · rw [if_pos h]
        have : ¬ (u = b ∧ v = a) := by rintro ⟨rfl, rfl⟩; exact Pt.lt_asymm h hab
        by_cases h1 : u = a ∧ v = b
        · simp [h1, ne]
        · simp [h1, this]
      · rw [if_neg h]
        have : ¬ (u = a ∧ v = b) := by rintro ⟨rfl, rfl⟩; exact h hab
        by_cases h1 : u = b ∧ v = a
        · simp [h1, ne.symm, hi]
        · have h2 : ¬ (v = a ∧ u = b) := fun h => h1 ⟨h.2, h.1⟩
          simp [h1, h2, this]
    rw [one]
    push_cast
    ring

theorem coincidentSum_contours {C : Type} [WindingCount C] (φ : C → Int) (st : ShapeType)
    (hi : φ (ofShape (C := C) st).2 = - φ (ofShape (C := C) st).1) {a b : Pt} (hab : a < b) (cs : List (List Pt))
    (hcs : ∀ c ∈ cs, NoSpikes c) :
    coincidentSum φ (cs.flatMap (appendContour (C := C) st)) a b = φ (ofShape (C := C) st).1 * netRuns cs a b := by
  unfold netRuns
  rw [← coincidentSum_edges φ (ofShape (C := C) st).1 (ofShape (C := C) st).2 hi hab]
  congr 1
  induction cs with
  | nil => rfl
  | cons c cs ih =>
    rw [List.flatMap_cons, List.flatMap_cons, List.map_append, ih fun c h => hcs c (List.mem_cons_of_mem _ h)]
    congr 1
    unfold appendContour
    rw [appendPath_corners _ _ _ (hcs c (by simp))]

theorem coincidentSum_off {C : Type} [WindingCount C] (φ : C → Int) (st : ShapeType) {a b : Pt} (hab : ¬ a < b)
    (cs : List (List Pt)) : coincidentSum φ (cs.flatMap (appendContour (C := C) st)) a b = 0 := by
  unfold coincidentSum
  rw [List.filter_eq_nil_iff.2]
  · rfl
  · intro s hs
    obtain ⟨c, -, hc⟩ := List.mem_flatMap.1 hs
    have := appendPath_lt _ _ _ s hc
    rw [decide_eq_true_iff]
    rintro ⟨rfl, rfl⟩
    exact hab this

theorem coincidentSum_net {C : Type} [WindingCount C] (φ : C → Int) (st : ShapeType)
    (hi : φ (ofShape (C := C) st).2 = - φ (ofShape (C := C) st).1) {cs cs' : List (List Pt)}
    (hcs : ∀ c ∈ cs, NoSpikes c) (hcs' : ∀ c ∈ cs', NoSpikes c) (h : ∀ a b, netRuns cs a b = netRuns cs' a b) (a b : Pt) :
    coincidentSum φ (cs.flatMap (appendContour (C := C) st)) a b = coincidentSum φ (cs'.flatMap (appendContour (C := C) st)) a b := by
  by_cases hab : a < b
  · rw [coincidentSum_contours φ st hi hab cs hcs, coincidentSum_contours φ st hi hab cs' hcs', h]
  · rw [coincidentSum_off φ st hab, coincidentSum_off φ st hab]

/-! ### the claim -/

/-- C79: two lists of contours that run through every edge equally often, opposite directions cancelling, give identical
results in the presence of whatever other contours: shapes for all rules, fill rules, directions and area limits, graphs and
vectors. (Fuel of two rounds is needed only if everything cancels.) -/
theorem C79_net (k : Config) (x : Externals) (hfuel : 2 ≤ k.fuel) {subj subj' clip clip' : List (List Pt)}
    (moreS moreC : List (List Pt))
    (hs : ∀ c ∈ subj, NoSpikes c) (hs' : ∀ c ∈ subj', NoSpikes c) (hc : ∀ c ∈ clip, NoSpikes c) (hc' : ∀ c ∈ clip', NoSpikes c)
    (es : ∀ a b, netRuns subj a b = netRuns subj' a b) (ec : ∀ a b, netRuns clip a b = netRuns clip' a b) :
    SameResults k x (overlaySegments (subj ++ moreS) (clip ++ moreC)) (overlaySegments (subj' ++ moreS) (clip' ++ moreC)) := by
  refine sameResults_of_keySum k x hfuel (overlaySegments_nonempty _ _) (overlaySegments_nonempty _ _) fun a b => ?_
  have ext : ∀ x y : CountBool, x.subj = y.subj → x.clip = y.clip → x = y := by rintro ⟨⟩ ⟨⟩ rfl rfl; rfl
  apply ext
  · rw [keySum_comp isComp_subj, keySum_comp isComp_subj]
    unfold overlaySegments
    simp only [List.flatMap_append, coincidentSum_append]
    rw [coincidentSum_net _ _ (by rfl) hs hs' es, coincidentSum_net _ _ (by rfl) hc hc' ec]
  · rw [keySum_comp isComp_clip, keySum_comp isComp_clip]
    unfold overlaySegments
    simp only [List.flatMap_append, coincidentSum_append]
    rw [coincidentSum_net _ _ (by rfl) hs hs' es, coincidentSum_net _ _ (by rfl) hc hc' ec]

/-- C79 (strings): the same for the shape that is sliced or that lines are clipped by. -/
theorem C79_net_string (k : StrConfig) (x : Externals) (order : List Pt → Bool) (hfuel : 2 ≤ k.fuel)
    {shape shape' : List (List Pt)} (more paths contours : List (List Pt)) (hs : ∀ c ∈ shape, NoSpikes c)
    (hs' : ∀ c ∈ shape', NoSpikes c) (es : ∀ a b, netRuns shape a b = netRuns shape' a b) :
    SameStrResults k x order (stringSegments (shape ++ more) paths contours) (stringSegments (shape' ++ more) paths contours) := by
  refine sameStrResults_of_keySum k x order hfuel (stringSegments_nonempty _ _ _) (stringSegments_nonempty _ _ _) fun a b => ?_
  have ext : ∀ x y : CountStr, x.subj = y.subj → x.back = y.back → x.fwd = y.fwd → x = y := by
    rintro ⟨⟩ ⟨⟩ rfl rfl rfl; rfl
  have flags : ∀ cs : List (List Pt), (∀ c ∈ cs, NoSpikes c) → (keySum (cs.flatMap (appendContour (C := CountStr) .subject)) a b).back = false ∧
      (keySum (cs.flatMap (appendContour (C := CountStr) .subject)) a b).fwd = false := by
    intro cs hcs
    have : ∀ l : List (Seg CountStr), (∀ s ∈ l, s.c.back = false ∧ s.c.fwd = false) →
        (keySum l a b).back = false ∧ (keySum l a b).fwd = false := by
      intro l
      induction l with
      | nil => intro _; exact ⟨rfl, rfl⟩
      | cons s l ih =>
        intro h
        have := ih fun t ht => h t (List.mem_cons_of_mem _ ht)
        have hs := h s (by simp)
        rw [keySum_cons]
        split
        · simp [add, this, hs]
        · exact this
    refine this _ fun s hs => ?_
    obtain ⟨c, hm, hc⟩ := List.mem_flatMap.1 hs
    unfold appendContour at hc
    rw [appendPath_corners _ _ _ (hcs c hm)] at hc
    obtain ⟨e, -, rfl⟩ := List.mem_map.1 hc
    unfold withAB
    split <;> exact ⟨rfl, rfl⟩
  unfold stringSegments
  rw [List.flatMap_append, List.flatMap_append]
  simp only [List.append_assoc]
  rw [keySum_append, keySum_append (shape'.flatMap _)]
  congr 1
  apply ext
  · rw [keySum_comp isComp_strSubj, keySum_comp isComp_strSubj, coincidentSum_net _ _ (by rfl) hs hs' es]
  · rw [(flags _ hs).1, (flags _ hs').1]
  · rw [(flags _ hs).2, (flags _ hs').2]

/-! ### corollaries -/

theorem netRuns_append (cs ds : List (List Pt)) (a b : Pt) : netRuns (cs ++ ds) a b = netRuns cs a b + netRuns ds a b := by
  unfold netRuns
  rw [List.flatMap_append, List.count_append, List.count_append]
  push_cast
  ring

theorem netRuns_cons (c : List Pt) (ds : List (List Pt)) (a b : Pt) : netRuns (c :: ds) a b = netRuns [c] a b + netRuns ds a b :=
  netRuns_append [c] ds a b

theorem netRuns_swap (cs : List (List Pt)) (a b : Pt) : netRuns cs b a = - netRuns cs a b := by
  unfold netRuns; ring

theorem count_swap (es : List (Pt × Pt)) (a b : Pt) : (es.map Prod.swap).count (a, b) = es.count (b, a) :=
  List.count_map_of_injective es Prod.swap Prod.swap_injective (b, a)

theorem netRuns_reverse (c : List Pt) (a b : Pt) : netRuns [c.reverse] a b = - netRuns [c] a b := by
  unfold netRuns
  simp only [List.flatMap_cons, List.flatMap_nil, List.append_nil]
  have hp : (polyEdges (corners c.reverse)).Perm ((polyEdges (corners c)).map Prod.swap) :=
    (polyEdges_rotated (corners_reverse c)).trans (polyEdges_reverse _)
  rw [hp.count_eq, hp.count_eq, count_swap, count_swap]
  ring

/-- C79: a contour added together with its reverse has no effect whatever, although its edges may cross others. -/
theorem C79_reverse (k : Config) (x : Externals) (hfuel : 2 ≤ k.fuel) {c : List Pt} {subj clip : List (List Pt)}
    (hc : NoSpikes c) :
    SameResults k x (overlaySegments (c :: c.reverse :: subj) clip) (overlaySegments subj clip) ∧
    SameResults k x (overlaySegments subj (c :: c.reverse :: clip)) (overlaySegments subj clip) := by
  have two : ∀ d ∈ [c, c.reverse], NoSpikes d := by
    intro d hd
    rcases List.mem_cons.1 hd with rfl | hd
    · exact hc
    · rw [List.mem_singleton.1 hd]; exact hc.reverse
  have net : ∀ a b, netRuns [c, c.reverse] a b = netRuns [] a b := by
    intro a b
    rw [netRuns_cons, netRuns_reverse, add_neg_cancel]
    rfl
  exact ⟨C79_net k x hfuel (subj' := []) (clip := []) (clip' := []) subj clip two (by simp) (by simp) (by simp) net fun _ _ => rfl,
    C79_net k x hfuel (subj := []) (subj' := []) (clip' := []) subj clip (by simp) (by simp) two (by simp) (fun _ _ => rfl) net⟩

theorem AllCorners.noSpikes {c : List Pt} (h : AllCorners c) : NoSpikes c := by
  intro t ht
  left
  have := h t ht
  unfold isCorner at this
  exact of_decide_eq_true this

theorem triples_middle : ∀ l : List Pt, (triples l).map (fun t => t.2.1) = l.tail.dropLast
  | [] => rfl
  | [_] => rfl
  | [_, _] => rfl
  | a :: b :: c :: l => by
    have := triples_middle (b :: c :: l)
    simp only [triples, List.map_cons, List.tail_cons] at this ⊢
    rw [this]
    simp

theorem AllCorners.corners_eq {c : List Pt} (h : AllCorners c) (hl : 2 ≤ c.length) : (corners c).IsRotated c := by
  rcases c with _ | ⟨p, _ | ⟨q, l⟩⟩
  · simp at hl
  · simp at hl
  have e : corners (p :: q :: l) = (cyclicTriples (p :: q :: l)).map fun t => t.2.1 := by
    unfold corners
    rw [List.filter_eq_self.2 h]
  have e' : corners (p :: q :: l) = (p :: q :: l).rotate 1 := by
    rw [e]
    unfold cyclicTriples
    rw [triples_middle]
    have : ((p :: q :: l) ++ (p :: q :: l).take 2).tail = ((q :: l) ++ [p]) ++ [q] := by simp
    rw [this, List.dropLast_concat]
    simp
  rw [e']
  exact (List.IsRotated.symm ⟨1, rfl⟩)

/-- C79: a contour may be cut along a line between two of its vertices: the two parts give the results of the whole, wherever
the line lies. By repeating this, every triangulation of a polygon gives the results of the polygon. -/
theorem C79_chord (k : Config) (x : Externals) (hfuel : 2 ≤ k.fuel) {p q : Pt} {l m : List Pt} {subj clip : List (List Pt)}
    (hw : AllCorners (p :: l ++ q :: m)) (h1 : AllCorners (p :: l ++ [q])) (h2 : AllCorners (q :: m ++ [p])) :
    SameResults k x (overlaySegments ((p :: l ++ [q]) :: (q :: m ++ [p]) :: subj) clip)
      (overlaySegments ((p :: l ++ q :: m) :: subj) clip) := by
  refine C79_net k x hfuel (subj := [p :: l ++ [q], q :: m ++ [p]]) (subj' := [p :: l ++ q :: m]) (clip := []) (clip' := [])
    subj clip ?_ ?_ (by simp) (by simp) ?_ fun _ _ => rfl
  · intro c hm
    rcases List.mem_cons.1 hm with rfl | hm
    · exact h1.noSpikes
    · rw [List.mem_singleton.1 hm]; exact h2.noSpikes
  · intro c hm
    rw [List.mem_singleton.1 hm]; exact hw.noSpikes
  · intro a b
    rw [netRuns_cons]
    have one : ∀ {c : List Pt}, AllCorners c → 2 ≤ c.length → ∀ a b,
        netRuns [c] a b = ((polyEdges c).count (a, b) : Int) - (polyEdges c).count (b, a) := by
      intro c h hl a b
      unfold netRuns
      simp only [List.flatMap_cons, List.flatMap_nil, List.append_nil]
      rw [(polyEdges_rotated (h.corners_eq hl)).count_eq, (polyEdges_rotated (h.corners_eq hl)).count_eq]
    have last : ∀ (u v : Pt) (l : List Pt), (u :: l ++ [v]).getLast? = some v := fun u v l => List.getLast?_concat ..
    rw [one h1 (by simp), one h2 (by simp), one hw (by simp; omega)]
    have e1 : polyEdges (p :: l ++ [q]) = pathSteps (p :: l ++ [q]) ++ [(q, p)] := by
      rw [polyEdges_eq_pathSteps (p := p) rfl, pathSteps_append (last _ _ _)]
    have e2 : polyEdges (q :: m ++ [p]) = pathSteps (q :: m ++ [p]) ++ [(p, q)] := by
      rw [polyEdges_eq_pathSteps (p := q) rfl, pathSteps_append (last _ _ _)]
    have e3 : polyEdges (p :: l ++ q :: m) = pathSteps (p :: l ++ [q]) ++ pathSteps (q :: m ++ [p]) := by
      rw [polyEdges_eq_pathSteps (p := p) rfl]
      have := pathSteps_join (last p q l) (m ++ [p])
      rw [show q :: m ++ [p] = q :: (m ++ [p]) from rfl, ← this]
      congr 1
      simp
    have s1 : ((q, p) == (a, b)) = ((p, q) == (b, a)) := by
      rw [Bool.eq_iff_iff, beq_iff_eq, beq_iff_eq, Prod.mk.injEq, Prod.mk.injEq]; exact and_comm
    have s2 : ((q, p) == (b, a)) = ((p, q) == (a, b)) := by
      rw [Bool.eq_iff_iff, beq_iff_eq, beq_iff_eq, Prod.mk.injEq, Prod.mk.injEq]; exact and_comm
    rw [e1, e2, e3]
    simp only [List.count_append, List.count_cons, List.count_nil, s1, s2]
    push_cast
    ring

/-! ### examples -/

/-- A concave pentagon and a triangulation of it: three triangles; a triangle together with its reverse. -/
def exPentagon : List Pt := [⟨0, 0⟩, ⟨10, 0⟩, ⟨10, 10⟩, ⟨5, 3⟩, ⟨0, 10⟩]

example : AllCorners exPentagon ∧
    netRuns [exPentagon] ⟨0, 0⟩ ⟨10, 0⟩ = 1 ∧ netRuns [exPentagon] ⟨0, 0⟩ ⟨5, 3⟩ = 0 ∧
    AllCorners [⟨0, 0⟩, ⟨10, 0⟩, ⟨10, 10⟩, (⟨5, 3⟩ : Pt)] ∧ AllCorners [⟨5, 3⟩, ⟨0, 10⟩, (⟨0, 0⟩ : Pt)] ∧
    AllCorners [⟨0, 0⟩, ⟨10, 0⟩, (⟨5, 3⟩ : Pt)] ∧ AllCorners [⟨10, 0⟩, ⟨10, 10⟩, (⟨5, 3⟩ : Pt)] := by
  decide +kernel

/-- The triangulation gives the results of the pentagon. -/
example (k : Config) (x : Externals) (hfuel : 2 ≤ k.fuel) :
    SameResults k x (overlaySegments [[⟨0, 0⟩, ⟨10, 0⟩, ⟨10, 10⟩, ⟨5, 3⟩], [⟨5, 3⟩, ⟨0, 10⟩, ⟨0, 0⟩]] [])
      (overlaySegments [exPentagon] []) :=
  C79_chord k x hfuel (p := ⟨0, 0⟩) (q := ⟨5, 3⟩) (l := [⟨10, 0⟩, ⟨10, 10⟩]) (m := [⟨0, 10⟩]) (by decide +kernel)
    (by decide +kernel) (by decide +kernel)

/-- The hypothesis on fuel is met by the configuration of the other examples, and the cut changes what is registered: seven
edges instead of five. -/
example : (overlaySegments [[⟨0, 0⟩, ⟨10, 0⟩, ⟨10, 10⟩, ⟨5, 3⟩], [⟨5, 3⟩, ⟨0, 10⟩, ⟨0, 0⟩]] [] : List (Seg CountBool)).length = 7 ∧
    (overlaySegments [exPentagon] [] : List (Seg CountBool)).length = 5 := by decide +kernel

/-- A vertex in the line of an edge is different: a part that has a vertex where the other part runs straight keeps it in the
result, so `AllCorners` cannot be dropped from `C79_chord`: here the cut starts at a vertex inside an edge of the whole. -/
theorem C79_straight : ∃ a b, netRuns [[⟨0, 0⟩, ⟨5, 0⟩, ⟨5, 10⟩], [⟨5, 10⟩, ⟨5, 0⟩, ⟨10, 0⟩]] a b ≠
    netRuns [[⟨0, 0⟩, ⟨5, 0⟩, ⟨10, 0⟩, (⟨5, 10⟩ : Pt)]] a b :=
  ⟨⟨0, 0⟩, ⟨10, 0⟩, by decide +kernel⟩

end IOverlay
