/-
Properties C20 (nodes of the graph) and C40 (even number of kept edges at every vertex).
-/
import Verif.Links
import Verif.Props.Rules
import Mathlib.Algebra.Group.Nat.Even

namespace IOverlay

/-! ### C40 -/

theorem even_countP {segs : List (Seg CountBool)} (he : EdgesOk segs) (rule : FillRule) (r : OverlayRule) (P : Pt) :
    Even (segs.countP (fun s => isIncluded r (fillOf rule segs s) && decide (s.a = P)) +
      segs.countP (fun s => isIncluded r (fillOf rule segs s) && decide (s.b = P))) := by
  have h := even_kept he.planar he.subj he.clip rule r P
  rw [par_filter, par_eq_countP] at h
  have e : ∀ l : List (Seg CountBool), (∀ s ∈ l, s.a < s.b) →
      l.countP (fun s => isIncluded r (fillOf rule segs s) && decide (s.a = P)) +
      l.countP (fun s => isIncluded r (fillOf rule segs s) && decide (s.b = P)) =
      l.countP (fun s => decide (s.a = P ∨ s.b = P) && keptB rule r segs s) := by
    intro l hl
    induction l with
    | nil => rfl
    | cons s l ih =>
      have ih := ih fun t ht => hl t (List.mem_cons_of_mem _ ht)
      have hlt := hl s (by simp)
      rw [List.countP_cons, List.countP_cons, List.countP_cons, ← ih]
      simp only [isIncluded_fillOf]
      cases keptB rule r segs s
      · simp
      · by_cases h1 : s.a = P
        · have h2 : ¬ s.b = P := fun h => Pt.ne_of_lt hlt (h1.trans h.symm)
          simp [h1, h2]; omega
        · by_cases h2 : s.b = P
          · simp [h1, h2]; omega
          · simp [h1, h2]
  rw [e segs he.planar.lt, Nat.even_iff]
  simp only [decide_eq_false_iff_not] at h
  convert Nat.mod_two_ne_one.1 h using 4

/-- C40 (one-shot overlay): for all contours, rules, strategies and precisions, at every point of the
plane the number of kept edges ending there is even. -/
theorem C40_even_degree (st : Strategy) (sr : SnapRadius) (tree : TreeOracle CountBool) (ht : tree.Ok)
    (sc : ScanOracle CountBool) (hsc : sc.Ok) (rule : FillRule) (r : OverlayRule) (fuel : Nat)
    (subj clip : List (List Pt)) (links : List Link)
    (hf : FragOk st sr (overlaySegments subj clip : List (Seg CountBool)))
    (h : buildBoolean (isIncluded r) rule st sr tree sc fuel (overlaySegments subj clip) = some links) (P : Pt) :
    Even (links.countP (fun l => decide (l.a = P)) + links.countP (fun l => decide (l.b = P))) := by
  obtain ⟨segs, he, -, rfl⟩ := buildBoolean_spec ht hsc hf h
  rw [List.countP_map, List.countP_map, List.countP_filter, List.countP_filter]
  convert even_countP he rule r P using 4 <;> simp [Bool.and_comm]

theorem fillOf_lt (rule : FillRule) (segs : List (Seg CountBool)) (s : Seg CountBool) : fillOf rule segs s < 16#8 := by
  unfold fillOf
  generalize rule.inside _ = a; generalize rule.inside _ = b
  generalize rule.inside _ = c; generalize rule.inside _ = d
  revert a b c d; decide

/-- C40 (prebuilt graph): whatever rule is later extracted from it, at every point of the plane the
number of edges of the graph kept by that rule is even. -/
theorem C40_even_degree_graph (st : Strategy) (sr : SnapRadius) (tree : TreeOracle CountBool) (ht : tree.Ok)
    (sc : ScanOracle CountBool) (hsc : sc.Ok) (rule : FillRule) (r : OverlayRule) (fuel : Nat)
    (subj clip : List (List Pt)) (links : List Link)
    (hf : FragOk st sr (overlaySegments subj clip : List (Seg CountBool)))
    (h : buildBoolean isGraphIncluded rule st sr tree sc fuel (overlaySegments subj clip) = some links) (P : Pt) :
    Even (links.countP (fun l => !maskFilter r l.fill && decide (l.a = P)) +
      links.countP (fun l => !maskFilter r l.fill && decide (l.b = P))) := by
  obtain ⟨segs, he, -, rfl⟩ := buildBoolean_spec ht hsc hf h
  rw [List.countP_map, List.countP_map, List.countP_filter, List.countP_filter]
  have e := even_countP he rule r P
  have q : ∀ s, isIncluded r (fillOf rule segs s) =
      (isGraphIncluded (fillOf rule segs s) && !maskFilter r (fillOf rule segs s)) :=
    fun s => (C11_graph_filter r _ (fillOf_lt rule segs s)).symm
  simp only [q] at e
  convert e using 4
  · simp [Bool.and_comm, Bool.and_left_comm]
  · simp [Bool.and_comm, Bool.and_left_comm]

/-! ### C20 -/

/-- Any filter: the links built from contours are in order. -/
theorem buildBoolean_linksOk {inc : Fill → Bool} {rule : FillRule} {st : Strategy} {sr : SnapRadius}
    {tree : TreeOracle CountBool} (ht : tree.Ok) {sc : ScanOracle CountBool} (hsc : sc.Ok) {fuel : Nat}
    {subj clip : List (List Pt)} {links : List Link}
    (hf : FragOk st sr (overlaySegments subj clip : List (Seg CountBool)))
    (h : buildBoolean inc rule st sr tree sc fuel (overlaySegments subj clip) = some links) : LinksOk links := by
  obtain ⟨segs, he, -, rfl⟩ := buildBoolean_spec ht hsc hf h
  exact linksOk_of_planar he.planar _ _

/-- The same where fragments may miss crossings. -/
theorem buildBoolean_linksOk_basic {inc : Fill → Bool} {rule : FillRule} {st : Strategy} {sr : SnapRadius}
    {tree : TreeOracle CountBool} (ht : tree.Ok) {sc : ScanOracle CountBool} {fuel : Nat}
    {subj clip : List (List Pt)} {links : List Link}
    (hf : FragRange st (overlaySegments subj clip : List (Seg CountBool)))
    (h : buildBoolean inc rule st sr tree sc fuel (overlaySegments subj clip) = some links) : LinksOk links := by
  unfold buildBoolean at h
  split at h
  · rw [← Option.some.inj h]
    exact ⟨by simp, List.Pairwise.nil⟩
  · obtain ⟨segs, h1, h2⟩ := Option.map_eq_some_iff.1 h
    obtain ⟨q1, q2, -⟩ := splitSegments_basic st sr tree ht (fun _ => True) (fun _ _ _ => trivial) fuel _ segs
      (overlaySegments_lt subj clip) hf trivial h1
    rw [← h2]
    split
    · exact ⟨by simp, List.Pairwise.nil⟩
    · generalize fillSweep sc (addAndFillBool rule) segs = F
      unfold buildLinks
      have key : ∀ (l : List (Seg CountBool)) (F : List Fill), l.Pairwise Seg.lt → (∀ s ∈ l, s.a < s.b) →
          LinksOk ((l.zip F).filterMap fun x => if inc x.2 then some ⟨x.1.a, 0, x.1.b, 0, x.2⟩ else none) := by
        intro l F hs hl
        refine ⟨?_, ?_⟩
        · intro m hm
          obtain ⟨x, hx, he⟩ := List.mem_filterMap.1 hm
          split at he
          · rw [← Option.some.inj he]
            exact hl _ (List.of_mem_zip hx).1
          · exact absurd he (by simp)
        · rw [List.pairwise_filterMap]
          have hz : (l.zip F).Pairwise fun x y => Seg.lt x.1 y.1 := by
            clear hl q1 q2 h1 h2 h
            induction l generalizing F with
            | nil => exact List.Pairwise.nil
            | cons s l ih =>
              cases F with
              | nil => exact List.Pairwise.nil
              | cons w F =>
                rw [List.pairwise_cons] at hs
                rw [List.zip_cons_cons, List.pairwise_cons]
                exact ⟨fun y hy => hs.1 _ (List.of_mem_zip hy).1, ih F hs.2⟩
          refine hz.imp ?_
          intro x y hxy m hm m' hm'
          split at hm <;> simp only [Option.some.injEq, reduceCtorEq] at hm
          split at hm' <;> simp only [Option.some.injEq, reduceCtorEq] at hm'
          subst hm hm'
          intro hlt
          rcases hxy with h | ⟨h, -⟩
          · exact Pt.lt_asymm h hlt
          · dsimp only at hlt; rw [h] at hlt; exact Pt.lt_irrefl _ hlt
      exact key segs F q1 q2

/-- C20: the graph of any overlay is built; it has the same edges (points, flags, order); two edge
ends carry the same node id iff they are the same point; every id is a node and every node is the
node of some edge end; each node lists exactly the edges having an end there, each once. -/
theorem C20_graph_nodes (inc : Fill → Bool) (rule : FillRule) (st : Strategy) (sr : SnapRadius)
    (tree : TreeOracle CountBool) (ht : tree.Ok) (sc : ScanOracle CountBool) (hsc : sc.Ok) (fuel : Nat)
    (sortE : List End → List End) (hE : EndSort sortE) (subj clip : List (List Pt)) (links : List Link)
    (hf : FragRange st (overlaySegments subj clip : List (Seg CountBool)))
    (h : buildBoolean inc rule st sr tree sc fuel (overlaySegments subj clip) = some links) :
    ∃ g, Graph.new sortE links = some g ∧
      g.links.map (fun l => (l.a, l.b, l.fill)) = links.map (fun l => (l.a, l.b, l.fill)) ∧
      (∀ l ∈ g.links, ∀ m ∈ g.links, (l.aId = m.aId ↔ l.a = m.a) ∧ (l.aId = m.bId ↔ l.a = m.b) ∧
        (l.bId = m.bId ↔ l.b = m.b)) ∧
      (∀ l ∈ g.links, l.aId < g.nodes.length ∧ l.bId < g.nodes.length) ∧
      (∀ k < g.nodes.length, ∃ l ∈ g.links, l.aId = k ∨ l.bId = k) ∧
      (∀ (k : Nat) (nd : Node), g.nodes[k]? = some nd → nd.indices.Nodup ∧
        ∀ i, i ∈ nd.indices ↔ ∃ l, g.links[i]? = some l ∧ (l.aId = k ∨ l.bId = k)) := by
  obtain ⟨g, V, h1, hg, h2⟩ := Graph.new_spec hE (buildBoolean_linksOk_basic ht hf h)
  have hnd : V.Nodup := hg.sorted.imp fun {a b} h => Pt.ne_of_lt h
  have Vinj : ∀ {i j : Nat} {v w : Pt}, V[i]? = some v → V[j]? = some w → (i = j ↔ v = w) := by
    intro i j v w hi hj
    constructor
    · rintro rfl; rw [hi] at hj; exact Option.some.inj hj
    · rintro rfl
      exact (List.getElem?_inj (List.getElem?_eq_some_iff.1 hi).1 hnd).1 (hi.trans hj.symm)
  refine ⟨g, h1, h2, ?_, ?_, ?_, ?_⟩
  · intro l hl m hm
    exact ⟨Vinj (hg.aId l hl) (hg.aId m hm), Vinj (hg.aId l hl) (hg.bId m hm), Vinj (hg.bId l hl) (hg.bId m hm)⟩
  · intro l hl
    rw [hg.nodes]
    exact ⟨(List.getElem?_eq_some_iff.1 (hg.aId l hl)).1, (List.getElem?_eq_some_iff.1 (hg.bId l hl)).1⟩
  · intro k hk
    rw [hg.nodes] at hk
    have hk' : V[k]? = some V[k] := List.getElem?_eq_getElem hk
    obtain ⟨l, hl, h⟩ := hg.occ V[k] (List.getElem_mem hk)
    refine ⟨l, hl, ?_⟩
    rcases h with h | h
    · exact Or.inl ((Vinj (hg.aId l hl) hk').2 h)
    · exact Or.inr ((Vinj (hg.bId l hl) hk').2 h)
  · intro k nd hk
    obtain ⟨A, B, rfl, nA, nB, mA, mB⟩ := hg.idx k nd hk
    rw [Node.indices_new]
    refine ⟨List.nodup_append.2 ⟨nA, nB, ?_⟩, ?_⟩
    · rintro i hi j hj rfl
      obtain ⟨l, q1, q2⟩ := (mA i).1 hi
      obtain ⟨m, q3, q4⟩ := (mB i).1 hj
      rw [q1] at q3
      obtain rfl := Option.some.inj q3
      have hm := List.mem_of_getElem? q1
      have := (Vinj (hg.aId l hm) (hg.bId l hm)).1 (q2.trans q4.symm)
      exact Pt.ne_of_lt (hg.lt l hm) this
    · intro i
      rw [List.mem_append, mA, mB]
      constructor
      · rintro (⟨l, q1, q2⟩ | ⟨l, q1, q2⟩)
        · exact ⟨l, q1, Or.inl q2⟩
        · exact ⟨l, q1, Or.inr q2⟩
      · rintro ⟨l, q1, q2 | q2⟩
        · exact Or.inl ⟨l, q1, q2⟩
        · exact Or.inr ⟨l, q1, q2⟩

/-! ### witnesses -/

/-- Two crossing squares. -/
def crossingSquares : List (List Pt) × List (List Pt) :=
  ([[⟨0, 0⟩, ⟨10, 0⟩, ⟨10, 10⟩, ⟨0, 10⟩]], [[⟨5, 5⟩, ⟨15, 5⟩, ⟨15, 15⟩, ⟨5, 15⟩]])

/-- The xor of two crossing squares keeps 12 edges and has 10 nodes, two of them with four edges. -/
example : ((buildBoolean (isIncluded .xor) .nonZero .list ⟨0, 1⟩ (bruteTree CountBool) listScanOracle 5
    (overlaySegments crossingSquares.1 crossingSquares.2)).bind (Graph.new insertionEndSort)).map
      (fun g => (g.links.length, g.nodes.map fun n => n.indices.length)) =
    some (12, [2, 2, 2, 4, 2, 2, 4, 2, 2, 2]) := by
  decide +kernel

end IOverlay
