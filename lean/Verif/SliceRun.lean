/-
A whole slice: its walks run around faces, and the loops split off wind once. C58.
-/
import Verif.LoopNest
import Verif.Keys
import Verif.Props.Loops
import Verif.Direction

namespace IOverlay

section
variable {r : List (Seg CountStr)} (hp : Planar r) (hb : Closed CountStr.subj r) (rule : FillRule)
include hp

theorem planar_units : Planar (r.map fun s => (⟨s.a, s.b, ()⟩ : Seg Unit)) := by
  refine ⟨?_, ?_, ?_⟩
  · intro t ht
    obtain ⟨s, hs, rfl⟩ := List.mem_map.1 ht
    exact hp.lt s hs
  · rw [List.pairwise_map]
    exact hp.sorted.imp fun {a b} h => h
  · unfold Noded
    rw [List.pairwise_map]
    exact (show List.Pairwise _ _ from hp.noded).imp fun {a b} h => h

theorem dartOf_edge {s : Seg CountStr} (hs : s ∈ r) : dartOf (s.a, s.b) = ⟨s.key, true⟩ ∧ dartOf (s.b, s.a) = ⟨s.key, false⟩ := by
  have h := hp.lt s hs
  unfold dartOf Seg.key
  exact ⟨by rw [if_pos h], by rw [if_neg (Pt.lt_asymm h)]; rfl⟩

/-- The filled sides are the directed edges with filled left side. -/
theorem mem_edgeSides (e : Pt × Pt) : e ∈ r.flatMap (edgeSides rule r) ↔
    (dartOf e).s ∈ r.map Seg.key ∧ rule.inside (hug true (lift CountStr.subj r) (r.map Seg.key) (dartOf e)) = true := by
  have hv : ∀ s ∈ r, hug true (lift CountStr.subj r) (r.map Seg.key) ⟨s.key, true⟩ = botW CountStr.subj r s + s.c.subj ∧
      hug true (lift CountStr.subj r) (r.map Seg.key) ⟨s.key, false⟩ = botW CountStr.subj r s := by
    intro s hs
    unfold hug
    simp only [botW_keys hp, lift_eq hp _ hs]
    simp
  constructor
  · intro h
    obtain ⟨s, hs, he⟩ := List.mem_flatMap.1 h
    unfold edgeSides at he
    rcases List.mem_append.1 he with he | he <;> split at he <;> simp only [List.mem_singleton, List.not_mem_nil] at he
    · rename_i hi
      rw [he, (dartOf_edge hp hs).1, (hv s hs).1]
      exact ⟨List.mem_map_of_mem hs, hi⟩
    · rename_i hi
      rw [he, (dartOf_edge hp hs).2, (hv s hs).2]
      exact ⟨List.mem_map_of_mem hs, hi⟩
  · rintro ⟨h1, h2⟩
    obtain ⟨s, hs, he⟩ := List.mem_map.1 h1
    refine List.mem_flatMap.2 ⟨s, hs, ?_⟩
    have hc := dartOf_cases e
    rw [← he] at hc
    change e = (s.a, s.b) ∨ e = (s.b, s.a) at hc
    unfold edgeSides
    rcases hc with rfl | rfl
    · rw [(dartOf_edge hp hs).1, (hv s hs).1] at h2
      rw [h2]; simp
    · rw [(dartOf_edge hp hs).2, (hv s hs).2] at h2
      rw [h2]; simp

theorem edgeSides_nodup : (r.flatMap (edgeSides rule r)).Nodup := by
  rw [List.nodup_flatMap]
  constructor
  · intro s hs
    have hne := Pt.ne_of_lt (hp.lt s hs)
    unfold edgeSides
    split <;> split <;> simp [hne]
  · refine List.Pairwise.imp_of_mem (R := fun s t => s ≠ t) ?_ hp.nodup
    intro s t hs ht hne
    have hm : ∀ {u : Seg CountStr} {e : Pt × Pt}, e ∈ edgeSides rule r u → e = (u.a, u.b) ∨ e = (u.b, u.a) := by
      intro u e he
      unfold edgeSides at he
      rcases List.mem_append.1 he with he | he <;> split at he <;> simp at he
      · exact Or.inl he
      · exact Or.inr he
    have ls := hp.lt s hs
    have lt := hp.lt t ht
    intro e h1 h2
    rcases hm h1 with rfl | rfl <;> rcases hm h2 with h | h <;> simp only [Prod.mk.injEq] at h
    · exact hne (hp.seg_ext hs ht h.1 h.2)
    · rw [h.1, h.2] at ls; exact Pt.lt_asymm lt ls
    · rw [h.1, h.2] at ls; exact Pt.lt_asymm lt ls
    · exact hne (hp.seg_ext hs ht h.2 h.1)

include hb

theorem edgeSides_matched (q : Pt) : Matched true (r.map Seg.key) (r.flatMap (edgeSides rule r)) q := by
  intro e f h _
  rw [mem_edgeSides hp, mem_edgeSides hp, h.hug_eq (planar_keys hp) (closed_keys hp hb)]
  exact ⟨fun x => ⟨h.2.1, x.2⟩, fun x => ⟨h.1, x.2⟩⟩

end

/-- A closed walk around faces: the inner sides are filled. -/
structure FaceWalk (rule : FillRule) (r : List (Seg CountStr)) (w : Bool × List Pt) : Prop where
  chain : FaceChain w.1 (r.map Seg.key) (polyEdges w.2)
  nodup : (polyEdges w.2).Nodup
  mem : ∀ e ∈ polyEdges w.2, (dartOf e).s ∈ r.map Seg.key
  filled : ∀ e ∈ polyEdges w.2, rule.inside (hug w.1 (lift CountStr.subj r) (r.map Seg.key) (dartOf e)) = true

/-- The walks of a slice. -/
theorem slice_faces (rule : FillRule) (st : Strategy) (sr : SnapRadius)
    (tree : TreeOracle CountStr) (ht : tree.Ok) (sc : ScanOracle CountStr) (hsc : sc.Ok) (fuel : Nat)
    (sortE : List End → List End) (hE : EndSort sortE) (shape paths contours : List (List Pt))
    (hf : FragOk st sr (stringSegments shape paths contours))
    (r : List (Seg CountStr))
    (hr : nodedEdges st sr tree fuel (stringSegments shape paths contours) = some r)
    (hn : st = .list ∨ 2 < r.length) :
    Planar r ∧ Closed CountStr.subj r ∧ ∃ (g : Graph) (walks : List (Bool × List Pt)),
      stringGraph rule st sr tree sc fuel sortE (stringSegments shape paths contours) = some g ∧
      sliceWalks g = some walks ∧ (∀ w ∈ walks, FaceWalk rule r w) ∧
      (walkSides walks).Perm (r.flatMap (edgeSides rule r)) := by
  obtain ⟨hp, hb⟩ := string_planar ht hf hr hn
  refine ⟨hp, hb, ?_⟩
  have hlinks := buildString_eq (inc := fun _ => true) (rule := rule) hsc hr hp hb
  rw [List.filter_true] at hlinks
  obtain ⟨g, V, h1, h2, h3⟩ := Graph.new_spec hE (links := r.map fun s => ⟨s.a, 0, s.b, 0, fillOfStr rule r s⟩)
    ⟨by
      intro l hl
      obtain ⟨s, hs, rfl⟩ := List.mem_map.1 hl
      exact hp.lt s hs,
    by
      rw [List.pairwise_map]
      refine hp.sorted.imp ?_
      intro s t hst hlt
      rcases hst with h | ⟨h, -⟩
      · exact Pt.lt_asymm h hlt
      · rw [h] at hlt; exact Pt.lt_irrefl _ hlt⟩
  -- the sides of the links
  have hsides : allSides g.links (filterSlice g.links) = r.flatMap (edgeSides rule r) := by
    have e : ∀ L : List Link, allSides L (filterSlice L) =
        (L.map fun l => (l.a, l.b, l.fill)).flatMap fun x => sideSteps x.1 x.2.1 (x.2.2 &&& SUBJ_BOTH) := by
      intro L
      unfold allSides filterSlice
      induction L with
      | nil => rfl
      | cons l L ih => simp only [List.map_cons, List.zip_cons_cons, List.flatMap_cons]; rw [ih]
    rw [e, h3, List.map_map, List.flatMap_map]
    congr 1
    funext s
    exact sideSteps_fill rule r s
  have hF : FillsOk g (filterSlice g.links) := by
    refine ⟨by unfold filterSlice; simp, fun f hf => ?_⟩
    unfold filterSlice at hf
    obtain ⟨l, -, rfl⟩ := List.mem_map.1 hf
    unfold Small
    rw [BitVec.and_assoc, BitVec.and_self]
  have hlen : (filterSlice g.links).length = g.links.length := hF.len
  have hal := allSides_length g.links (filterSlice g.links)
  obtain ⟨walks, a1, a2, a3⟩ := sliceLoop_spec h2 (3 * g.links.length + 1) 0 (filterSlice g.links) [] hF
    (by rw [hsides]; exact edgeSides_even rule hp hb) (by intro j h; omega) (by omega)
  have a3' : (walkSides walks).Perm (r.flatMap (edgeSides rule r)) := by
    rw [← hsides]; simpa [walkSides] using a3.symm
  -- planarity of the links
  have hseg : g.links.map Link.seg = r.map fun s => (⟨s.a, s.b, ()⟩ : Seg Unit) := by
    have := congrArg (List.map fun x : Pt × Pt × Fill => (⟨x.1, x.2.1, ()⟩ : Seg Unit)) h3
    rw [List.map_map, List.map_map, List.map_map] at this
    exact this
  have hEl : ∀ l ∈ g.links, l.edge ∈ r.map Seg.key := by
    intro l hl
    have hm := List.mem_map_of_mem (f := fun l : Link => (l.a, l.b, l.fill)) hl
    rw [h3, List.map_map] at hm
    obtain ⟨s, hs, he⟩ := List.mem_map.1 hm
    simp only [Function.comp, Prod.mk.injEq] at he
    refine List.mem_map.2 ⟨s, hs, ?_⟩
    unfold Seg.key Link.edge
    rw [he.1, he.2.1]
  have hpE := planar_keys hp
  obtain ⟨ws, w1, w2⟩ := sliceLoop_faces h2 (by rw [hseg]; exact planar_units hp) hpE (keyed_keys r) hEl
    (3 * g.links.length + 1) 0 (filterSlice g.links) [] walks hF
    (by rw [hsides]; exact edgeSides_nodup hp rule) (by intro j h; omega)
    (by intro l _; rw [hsides]; exact edgeSides_matched hp hb rule l.a) a1
  rw [List.nil_append] at w1
  subst w1
  refine ⟨g, walks, by unfold stringGraph; rw [hlinks, Option.bind_some, h1], a1, ?_, a3'⟩
  intro w hw
  obtain ⟨b1, b2, b3⟩ := w2 w hw
  refine ⟨b1, b2, fun e he => (b3 e he).1, fun e he => ?_⟩
  obtain ⟨c1, c2⟩ := b3 e he
  rw [hsides, mem_edgeSides hp] at c2
  rcases hd : w.1 with _ | _
  · rw [hd] at c2
    have := c2.2
    unfold turn at this
    simp only [Bool.false_eq_true, if_false] at this
    rw [hug_swap hpE _ _ c1] at this
    rw [← this]
    congr 1
    unfold hug far
    cases (dartOf e).fwd <;> rfl
  · rw [hd] at c2
    exact c2.2

/-- The loops split off a walk around faces. -/
theorem FaceWalk.loops {rule : FillRule} {r : List (Seg CountStr)} (hp : Planar r) {w : Bool × List Pt}
    (h : FaceWalk rule r w) :
    ∃ loops, splitLoops 0 w.2 = some loops ∧ (∀ c ∈ loops, FaceLoop w.1 (r.map Seg.key) c) ∧
      (∀ c ∈ loops, ∀ e ∈ polyEdges c, e ∈ polyEdges w.2) ∧
      ∀ q, polysWind loops q = polyWind w.2 q := by
  have hpE := planar_keys hp
  have hni : NonInterleaved w.2 := by
    have := faces_noninterleaved hpE (keyed_keys r) h.chain h.nodup h.mem
    rwa [show (polyEdges w.2).map Prod.fst = w.2 from polyEdges_fst w.2] at this
  obtain ⟨loops, spikes, still, l1, l2, l3⟩ := C31_split_loops w.2 hni
  have hsub : ∀ c ∈ loops, ∀ e ∈ polyEdges c, e ∈ polyEdges w.2 := by
    intro c hc e he
    rw [l3.mem_iff]
    simp only [List.mem_append, List.mem_flatMap]
    exact Or.inl (Or.inl ⟨c, hc, he⟩)
  refine ⟨loops, l1, ?_, hsub, C31_winding w.2 hni loops l1⟩
  intro c hc
  refine ⟨(l2 c hc).1, (l2 c hc).2, fun e he => h.mem e (hsub c hc e he), ?_⟩
  intro φ hφ
  obtain ⟨m, hm⟩ := h.chain.const hpE hφ
  exact ⟨m, fun e he => hm e (hsub c hc e he)⟩

theorem FaceLoop.winds {E : List Edge} (hp : Planar E) (hk : Keyed E) {cw : Bool} {c : List Pt} (h : FaceLoop cw E c) :
    WindsOnce (side cw) c ∨ WindsOnce (- side cw) c := by
  obtain ⟨m, hm⟩ := h.const _ (loop_closed hp hk h.mem)
  rcases loop_winds hp hk h.simple h.three h.mem hm with ⟨-, h⟩ | ⟨-, h⟩
  · exact Or.inl h
  · exact Or.inr h

theorem windsOnce_reverse {k : Int} {c : List Pt} (h : WindsOnce k c) : WindsOnce (-k) c.reverse := by
  obtain ⟨h1, q, h2⟩ := h
  refine ⟨fun q => ?_, q, by rw [polyWind_reverse, h2]⟩
  rw [polyWind_reverse]
  rcases h1 q with h | h
  · left; omega
  · right; omega

/-- A contour of the result: a loop, turned around if the walk was followed in the direction `cw`. -/
def turned (cw d : Bool) (c : List Pt) : List Pt := if cw = d then c.reverse else c

theorem turned_wind (cw d : Bool) (c : List Pt) (q : QPt) : polyWind (turned cw d c) q = outerTurn cw * (side d * polyWind c q) := by
  unfold turned outerTurn side
  cases cw <;> cases d <;> simp [polyWind_reverse]

theorem polysWind_append (l m : List (List Pt)) (q : QPt) : polysWind (l ++ m) q = polysWind l q + polysWind m q := by
  unfold polysWind; simp

theorem classify_spec (order : List Pt → Bool) (cw d : Bool) (loops : List (List Pt)) :
    (classifyLoops order cw d loops).1 = (loops.filter fun c => order c != d).map (turned cw d) ∧
    (classifyLoops order cw d loops).2 = (loops.filter fun c => order c == d).map (turned cw d) := by
  unfold classifyLoops
  constructor
  · refine List.map_congr_left fun c hc => ?_
    rw [List.mem_filter] at hc
    unfold turned
    rcases ho : order c <;> rcases d <;> rcases cw <;> simp_all
  · refine List.map_congr_left fun c hc => ?_
    rw [List.mem_filter] at hc
    unfold turned
    rcases ho : order c <;> rcases d <;> rcases cw <;> simp_all

theorem polysWind_turned (cw d : Bool) (l : List (List Pt)) (q : QPt) :
    polysWind (l.map (turned cw d)) q = outerTurn cw * (side d * polysWind l q) := by
  unfold polysWind
  induction l with
  | nil => simp
  | cons c l ih => simp only [List.map_cons, List.sum_cons, turned_wind] at ih ⊢; rw [ih]; ring

theorem polysWind_filter (p : List Pt → Bool) (l : List (List Pt)) (q : QPt) :
    polysWind (l.filter fun c => !p c) q + polysWind (l.filter p) q = polysWind l q := by
  induction l with
  | nil => rfl
  | cons c l ih =>
    have e : ∀ m : List (List Pt), polysWind (c :: m) q = polyWind c q + polysWind m q := by
      intro m; unfold polysWind; simp
    cases hpc : p c
    · rw [List.filter_cons_of_pos (by simp [hpc]), List.filter_cons_of_neg (by simp [hpc]), e, e]; linarith
    · rw [List.filter_cons_of_neg (by simp [hpc]), List.filter_cons_of_pos (by simp [hpc]), e, e]; linarith

/-- All contours. -/
theorem assemble_spec (order : List Pt → Bool) (cw : Bool) {rule : FillRule} {r : List (Seg CountStr)} (hp : Planar r) :
    ∀ walks : List (Bool × List Pt), (∀ w ∈ walks, FaceWalk rule r w) →
    ∃ outer holes, assembleSlice order cw 0 walks = some (outer, holes) ∧
      (∀ c ∈ outer, ∃ d c0, FaceLoop d (r.map Seg.key) c0 ∧ order c0 = (!d) ∧ c = turned cw d c0) ∧
      (∀ c ∈ holes, ∃ d c0, FaceLoop d (r.map Seg.key) c0 ∧ order c0 = d ∧ c = turned cw d c0) ∧
      ∀ q, polysWind outer q + polysWind holes q = outerTurn cw * stepsWind (walkSides walks) q := by
  intro walks
  induction walks with
  | nil => intro _; exact ⟨[], [], rfl, by simp, by simp, fun q => by simp [polysWind, stepsWind, walkSides]⟩
  | cons w ws ih =>
    intro h
    obtain ⟨outer, holes, e1, e2, e3, e4⟩ := ih fun w hw => h w (List.mem_cons_of_mem _ hw)
    obtain ⟨loops, l1, l2, -, l4⟩ := (h w List.mem_cons_self).loops hp
    obtain ⟨c1, c2⟩ := classify_spec order cw w.1 loops
    refine ⟨_, _, by rw [assembleSlice, l1, Option.bind_some, e1]; rfl, ?_, ?_, ?_⟩
    · intro c hc
      rcases List.mem_append.1 hc with hc | hc
      · rw [c1] at hc
        obtain ⟨c0, h0, rfl⟩ := List.mem_map.1 hc
        rw [List.mem_filter] at h0
        exact ⟨w.1, c0, l2 c0 h0.1, by have := h0.2; revert this; cases order c0 <;> cases w.1 <;> simp, rfl⟩
      · exact e2 c hc
    · intro c hc
      rcases List.mem_append.1 hc with hc | hc
      · rw [c2] at hc
        obtain ⟨c0, h0, rfl⟩ := List.mem_map.1 hc
        rw [List.mem_filter] at h0
        exact ⟨w.1, c0, l2 c0 h0.1, by simpa using h0.2, rfl⟩
      · exact e3 c hc
    · intro q
      simp only [polysWind_append, c1, c2, polysWind_turned]
      have ef := polysWind_filter (fun c => order c == w.1) loops q
      have e0 : (fun c : List Pt => order c != w.1) = fun c => !(order c == w.1) := rfl
      rw [e0]
      have es : stepsWind (walkSides (w :: ws)) q = side w.1 * polyWind w.2 q + stepsWind (walkSides ws) q := by
        have : walkSides (w :: ws) = (polyEdges w.2).map (turn w.1) ++ walkSides ws := rfl
        rw [this, stepsWind_append, stepsWind_turn]
        unfold side polyWind stepsWind
        cases w.1 <;> simp
      rw [es, ← l4, ← ef]
      have := e4 q
      linear_combination this

end IOverlay
