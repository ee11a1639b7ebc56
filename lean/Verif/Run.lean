/-
The state at the start of an extraction: which links are unvisited, and what the extraction makes
of them. Shared by the one-shot overlay and by extraction from a graph. C01, C21, C22.
-/
import Verif.Overlay
import Verif.BindLemmas
import Verif.FirstOuter
import Verif.Props.Graph

namespace IOverlay

theorem par_map {α β : Type} (f : α → β) (p : β → Bool) (l : List α) : par p (l.map f) = par (fun x => p (f x)) l := by
  induction l with
  | nil => rfl
  | cons x l ih => rw [List.map_cons, par_cons, par_cons, ih]

theorem range_map_get {α : Type} (l : List α) : (List.range l.length).map (fun i => l[i]?) = l.map some := by
  apply List.ext_getElem?
  intro i
  rw [List.getElem?_map, List.getElem?_map]
  by_cases h : i < l.length
  · rw [List.getElem?_range h, List.getElem?_eq_getElem h]; simp [h]
  · rw [List.getElem?_eq_none (by simpa using h), List.getElem?_eq_none (by simpa using h)]; rfl

theorem par_range {α : Type} (F : α → Bool) (p : α → Bool) (l : List α) (P : Nat → Bool)
    (hP : ∀ i x, l[i]? = some x → P i = p x) :
    par (fun i => !isVisited (l.map F) i && P i) (List.range l.length) = par (fun x => !F x && p x) l := by
  have e : ∀ i ∈ List.range l.length, (!isVisited (l.map F) i && P i) =
      (fun o : Option α => match o with | some x => !F x && p x | none => false) l[i]? := by
    intro i hi
    rw [List.mem_range] at hi
    have hx : l[i]? = some l[i] := List.getElem?_eq_getElem hi
    rw [hP i _ hx, hx]
    unfold isVisited
    rw [List.getD_eq_getElem?_getD, List.getElem?_map, hx]
    rfl
  rw [par_congr e]
  refine (par_map (fun i => l[i]?) (fun o : Option α => match o with | some x => !F x && p x | none => false)
    (List.range l.length)).symm.trans ?_
  rw [range_map_get, par_map]

/-- The links of the graph are the edges accepted by a filter, and the unvisited ones are those kept by
the rule. -/
structure RunOk (rule : FillRule) (r : OverlayRule) (segs : List (Seg CountBool)) (g : Graph) (V : List Pt)
    (vis : List Bool) : Prop where
  edges : EdgesOk segs
  graph : GraphOk g V
  filter : ∃ (inc F : Fill → Bool),
    g.links.map (fun l => (l.a, l.b, l.fill)) =
      (segs.filter fun s => inc (fillOf rule segs s)).map (fun s => (s.a, s.b, fillOf rule segs s)) ∧
    vis = g.links.map (fun l => F l.fill) ∧
    ∀ s ∈ segs, (inc (fillOf rule segs s) && !F (fillOf rule segs s)) = keptB rule r segs s

section
variable {rule : FillRule} {r : OverlayRule} {segs : List (Seg CountBool)} {g : Graph} {V : List Pt}
  {vis : List Bool} (h : RunOk rule r segs g V vis)
include h

theorem RunOk.length : vis.length = g.links.length := by
  obtain ⟨inc, F, -, e, -⟩ := h.filter
  rw [e]; simp

/-- Parity over the unvisited links as a parity over the kept edges. -/
theorem RunOk.par (p : Pt → Pt → Bool) (P : Nat → Bool) (hP : ∀ i l, g.links[i]? = some l → P i = p l.a l.b) :
    par (fun i => !isVisited vis i && P i) (List.range g.links.length) =
      par (fun s => keptB rule r segs s && p s.a s.b) segs := by
  obtain ⟨inc, F, e1, e2, e3⟩ := h.filter
  rw [e2, par_range (fun l : Link => F l.fill) (fun l => p l.a l.b) g.links P hP]
  have : ∀ l : List Link, IOverlay.par (fun l => !F l.fill && p l.a l.b) l =
      IOverlay.par (fun t : Pt × Pt × Fill => !F t.2.2 && p t.1 t.2.1) (l.map fun l => (l.a, l.b, l.fill)) := by
    intro l; rw [par_map]
  rw [this, e1, par_map, par_filter]
  refine par_congr fun s hs => ?_
  rw [← e3 s hs, Bool.and_assoc]

theorem RunOk.planar : Planar (g.links.map Link.seg) := by
  obtain ⟨inc, F, e1, -, -⟩ := h.filter
  have e : g.links.map Link.seg =
      (segs.filter fun s => inc (fillOf rule segs s)).map fun s => (⟨s.a, s.b, ()⟩ : Seg Unit) := by
    have := congrArg (List.map fun t : Pt × Pt × Fill => (⟨t.1, t.2.1, ()⟩ : Seg Unit)) e1
    rw [List.map_map, List.map_map] at this
    exact this
  rw [e]
  have hp := h.edges.planar
  refine ⟨?_, ?_, ?_⟩
  · intro t ht
    obtain ⟨s, hs, rfl⟩ := List.mem_map.1 ht
    exact hp.lt s (List.mem_filter.1 hs).1
  · rw [List.pairwise_map]
    exact (hp.sorted.filter _).imp fun {a b} h => h
  · unfold Noded
    rw [List.pairwise_map]
    exact (List.Pairwise.filter _ hp.noded).imp fun {a b} h => h

theorem RunOk.dpar (n : Nat) : dpar g vis n = false := by
  have hg := h.graph
  by_cases hn : n < V.length
  · have e : IOverlay.dpar g vis n =
        IOverlay.par (fun i => !isVisited vis i && inc g i n) (List.range g.links.length) := rfl
    rw [e, h.par (fun a b => decide (a = V[n]) || decide (b = V[n])) (fun i => inc g i n)]
    · have := even_kept h.edges.planar h.edges.subj h.edges.clip rule r V[n]
      rw [par_filter] at this
      rw [← this]
      refine par_congr fun s _ => ?_
      rw [Bool.decide_or, Bool.and_comm]
    · intro i l hl
      have hm := List.mem_of_getElem? hl
      have hd : V.Nodup := hg.sorted.imp fun {a b} h => Pt.ne_of_lt h
      have hVn : V[n]? = some V[n] := List.getElem?_eq_getElem hn
      have key : ∀ {k : Nat} {v : Pt}, V[k]? = some v → (k = n ↔ v = V[n]) := by
        intro k v hk
        constructor
        · rintro rfl; rw [hVn] at hk; exact (Option.some.inj hk).symm
        · rintro rfl
          exact (List.getElem?_inj (List.getElem?_eq_some_iff.1 hk).1 hd).1 (hk.trans hVn.symm)
      unfold inc
      rw [hl]
      simp only [key (hg.aId l hm), key (hg.bId l hm)]
  · unfold IOverlay.dpar
    have : ∀ i ∈ List.range g.links.length, (!isVisited vis i && inc g i n) = (fun _ => false) i := by
      intro i hi
      rw [List.mem_range] at hi
      unfold inc
      rw [List.getElem?_eq_getElem hi]
      have hm := List.getElem_mem hi
      have h1 := (List.getElem?_eq_some_iff.1 (hg.aId _ hm)).1
      have h2 := (List.getElem?_eq_some_iff.1 (hg.bId _ hm)).1
      have c1 : ¬ g.links[i].aId = n := by omega
      have c2 : ¬ g.links[i].bId = n := by omega
      simp [c1, c2]
    rw [par_congr this]
    generalize List.range g.links.length = l
    induction l with
    | nil => rfl
    | cons x l ih => rw [par_cons, ih]; rfl

/-- An unvisited link is a kept edge with the stored flags. -/
theorem RunOk.unvisited {i : Nat} {l : Link} (hl : g.links[i]? = some l) (hv : isVisited vis i = false) :
    ∃ s ∈ segs, s.a = l.a ∧ s.b = l.b ∧ l.fill = fillOf rule segs s ∧ keptB rule r segs s = true := by
  obtain ⟨inc, F, e1, e2, e3⟩ := h.filter
  have hm : (l.a, l.b, l.fill) ∈ g.links.map (fun l => (l.a, l.b, l.fill)) :=
    List.mem_map_of_mem (f := fun l : Link => (l.a, l.b, l.fill)) (List.mem_of_getElem? hl)
  rw [e1] at hm
  obtain ⟨s, hs, he⟩ := List.mem_map.1 hm
  rw [List.mem_filter] at hs
  simp only [Prod.mk.injEq] at he
  refine ⟨s, hs.1, he.1, he.2.1, he.2.2.symm, ?_⟩
  rw [← e3 s hs.1, hs.2]
  have : F l.fill = false := by
    rw [e2] at hv
    unfold isVisited at hv
    rw [List.getD_eq_getElem?_getD, List.getElem?_map, hl] at hv
    exact hv
  rw [he.2.2, this]; rfl

/-- A kept edge is an unvisited link. -/
theorem RunOk.kept {s : Seg CountBool} (hs : s ∈ segs) (hk : keptB rule r segs s = true) :
    ∃ i l, g.links[i]? = some l ∧ isVisited vis i = false ∧ l.a = s.a ∧ l.b = s.b := by
  obtain ⟨inc, F, e1, e2, e3⟩ := h.filter
  have h3 := e3 s hs
  rw [hk, Bool.and_eq_true] at h3
  have hm : (s.a, s.b, fillOf rule segs s) ∈ g.links.map (fun l => (l.a, l.b, l.fill)) := by
    rw [e1]
    exact List.mem_map_of_mem (f := fun s : Seg CountBool => (s.a, s.b, fillOf rule segs s))
      (List.mem_filter.2 ⟨hs, h3.1⟩)
  obtain ⟨l, hl, he⟩ := List.mem_map.1 hm
  obtain ⟨i, hi⟩ := List.mem_iff_getElem?.1 hl
  simp only [Prod.mk.injEq] at he
  refine ⟨i, l, hi, ?_, he.1, he.2.1⟩
  rw [e2]
  unfold isVisited
  rw [List.getD_eq_getElem?_getD, List.getElem?_map, hi]
  have := h3.2
  rw [← he.2.2] at this
  simpa using this

/-- The start link of the first contour is not below a filled region. -/
theorem RunOk.first {k lt : Nat} {l : Link} (hk : ∀ i < k, isVisited vis i = true)
    (hv : isVisited vis k = false) (hlt : findLeftTop g k vis = some lt) (hl : g.links[lt]? = some l) :
    isFillTop r l.fill = false := by
  have hk' := unvisited_lt hv
  rw [h.length] at hk'
  have hm : g.links[k]? = some g.links[k] := List.getElem?_eq_getElem hk'
  have hpl := h.planar
  have hs : ∀ {i j : Nat} {l m : Link}, g.links[i]? = some l → g.links[j]? = some m → l.a < m.a → i < j := by
    intro i j l m hi hj hlt
    by_contra hc
    have hij : j < i ∨ j = i := by omega
    rcases hij with hij | rfl
    · have hp := (List.pairwise_iff_getElem.1 hpl.sorted) j i
        (by rw [List.length_map]; exact (List.getElem?_eq_some_iff.1 hj).1)
        (by rw [List.length_map]; exact (List.getElem?_eq_some_iff.1 hi).1) hij
      rw [List.getElem_map, List.getElem_map, (List.getElem?_eq_some_iff.1 hj).2, (List.getElem?_eq_some_iff.1 hi).2] at hp
      rcases hp with hp | ⟨hp, -⟩
      · exact Pt.lt_asymm hlt hp
      · have hp : m.a = l.a := hp
        rw [hp] at hlt
        exact Pt.lt_irrefl _ hlt
    · rw [hi] at hj
      obtain rfl := Option.some.inj hj
      exact Pt.lt_irrefl _ hlt
  obtain ⟨q1, q2, q3⟩ := findLeftTop_top h.graph hpl h.dpar hm hv
    (fun i f hf hlt => hk i (hs hf hm hlt)) hlt hl
  obtain ⟨s, s1, s2, s3, s4, s5⟩ := h.unvisited hl q1
  rw [s4, isFillTop_fillOf rule r segs s s5, top_outside h.edges.planar h.edges.subj h.edges.clip rule r s1 s5,
    ruleAt_zero]
  · intro f hf hkf hlt'
    obtain ⟨j, m, j1, j2, j3, -⟩ := h.kept hf hkf
    rw [s2, q2] at hlt'
    rw [hk j (hs j1 hm (by rw [j3]; exact hlt'))] at j2
    exact absurd j2 (by simp)
  · intro f hf hkf ha hne
    obtain ⟨j, m, j1, j2, j3, j4⟩ := h.kept hf hkf
    rw [s2, s3, q2, ← j4]
    refine q3 j m j1 j2 (by rw [j3, ha, s2, q2]) ?_
    rintro rfl
    rw [hl] at j1
    obtain rfl := Option.some.inj j1
    refine hne ?_
    -- edges with the same ends are the same
    have hp := h.edges.planar
    by_contra hne'
    have := hp.fan_ne hf s1 hne' ha
    apply this
    rw [← j4, ← s3]
    unfold area2; ring

/-- The extraction from such a state. -/
theorem RunOk.extract (clockwise : Bool) (clean : List Pt → List Pt × Bool) (minArea : Nat) :
    ∃ ws e, extractContours g r clockwise clean minArea vis = some e ∧
      e.shapes = keptContours clean minArea false ws ∧
      e.holes = keptContours clean minArea true ws ∧
      e.anchors.map (·.1) = List.range e.holes.length ∧
      (ws.flatMap (·.trail)).Nodup ∧ (∀ i ∈ ws.flatMap (·.trail), isVisited vis i = false) ∧
      (∀ w ∈ ws, ClosedTrail g.links w.trail w.raw ∧ w.trail ≠ []) ∧
      (∀ w ∈ ws.head?, w.hole = false) ∧
      ((∀ w ∈ ws, (validate clean minArea w.raw).1 = true) →
        ∀ i, isVisited vis i = false → i ∈ ws.flatMap (·.trail)) := by
  have hu : unv g vis ≤ g.links.length := by
    unfold unv
    exact (List.countP_le_length).trans (by simp)
  obtain ⟨ws, e, h1, h2, h3, h4, h5, h6, h7, h8, h9⟩ :=
    extractLoop_spec h.graph r clockwise clean minArea (2 * vis.length + 1) 0 vis Extracted.empty
      h.length h.dpar (by rw [h.length]; omega) rfl
  refine ⟨ws, e, h1, by simpa [Extracted.empty] using h2, by simpa [Extracted.empty] using h3, h4, h5, h6,
    fun w hw => ⟨(h7 w hw).1, (h7 w hw).2.1⟩, ?_, h9 (by intro i hi; omega)⟩
  intro w hw
  obtain ⟨k, lt, l, -, k2, k3, k4, k5, k6⟩ := h8 w hw
  rw [k6]
  exact h.first (fun i hi => k2 i (Nat.zero_le _) hi) k3 k4 k5

end

theorem runOk_oneShot {st : Strategy} {sr : SnapRadius} {tree : TreeOracle CountBool} (ht : tree.Ok)
    {sc : ScanOracle CountBool} (hsc : sc.Ok) {fuel : Nat} {rule : FillRule} {r : OverlayRule}
    {sortE : List End → List End} (hE : EndSort sortE) {subj clip : List (List Pt)} {links : List Link}
    (hf : FragOk st sr (overlaySegments subj clip : List (Seg CountBool)))
    (hb : buildBoolean (isIncluded r) rule st sr tree sc fuel (overlaySegments subj clip) = some links) :
    ∃ segs g V, nodedEdges st sr tree fuel (overlaySegments subj clip) = some segs ∧
      Graph.new sortE links = some g ∧
      g.links.map (fun l => (l.a, l.b, l.fill)) = links.map (fun l => (l.a, l.b, l.fill)) ∧
      RunOk rule r segs g V (List.replicate g.links.length false) := by
  obtain ⟨segs, he, hsg, hl⟩ := buildBoolean_spec ht hsc hf hb
  obtain ⟨g, V, h1, hg, h2⟩ := Graph.new_spec hE (buildBoolean_linksOk ht hsc hf hb)
  refine ⟨segs, g, V, hsg, h1, h2, he, hg, isIncluded r, fun _ => false, ?_, ?_, ?_⟩
  · rw [h2, hl, List.map_map]; rfl
  · rw [List.map_const']
  · intro s _
    rw [isIncluded_fillOf]; simp

theorem runOk_graph {st : Strategy} {sr : SnapRadius} {tree : TreeOracle CountBool} (ht : tree.Ok)
    {sc : ScanOracle CountBool} (hsc : sc.Ok) {fuel : Nat} {rule : FillRule} (r : OverlayRule)
    {sortE : List End → List End} (hE : EndSort sortE) {subj clip : List (List Pt)} {links : List Link}
    (hf : FragOk st sr (overlaySegments subj clip : List (Seg CountBool)))
    (hb : buildBoolean isGraphIncluded rule st sr tree sc fuel (overlaySegments subj clip) = some links) :
    ∃ segs g V, nodedEdges st sr tree fuel (overlaySegments subj clip) = some segs ∧
      Graph.new sortE links = some g ∧
      g.links.map (fun l => (l.a, l.b, l.fill)) = links.map (fun l => (l.a, l.b, l.fill)) ∧
      RunOk rule r segs g V (g.links.map fun l => maskFilter r l.fill) := by
  obtain ⟨segs, he, hsg, hl⟩ := buildBoolean_spec ht hsc hf hb
  obtain ⟨g, V, h1, hg, h2⟩ := Graph.new_spec hE (buildBoolean_linksOk ht hsc hf hb)
  refine ⟨segs, g, V, hsg, h1, h2, he, hg, isGraphIncluded, maskFilter r, ?_, rfl, ?_⟩
  · rw [h2, hl, List.map_map]; rfl
  · intro s _
    rw [← isIncluded_fillOf]
    exact C11_graph_filter r _ (fillOf_lt rule segs s)

end IOverlay
