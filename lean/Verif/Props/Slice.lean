/-
Property C30: the slice operation walks along every filled side of every edge exactly once.
-/
import Verif.SliceLemmas
import Verif.Flow
import Verif.Props.Strings

namespace IOverlay

/-- Winding number of a point with respect to a list of directed steps. -/
noncomputable def stepsWind (L : List (Pt × Pt)) (q : QPt) : Int := (L.map fun e => edgeWind e.1 e.2 q).sum

theorem stepsWind_append (L M : List (Pt × Pt)) (q : QPt) : stepsWind (L ++ M) q = stepsWind L q + stepsWind M q := by
  unfold stepsWind; rw [List.map_append, List.sum_append]

theorem stepsWind_perm {L M : List (Pt × Pt)} (h : L.Perm M) (q : QPt) : stepsWind L q = stepsWind M q := by
  unfold stepsWind; exact (h.map _).sum_eq

theorem stepsWind_turn (d : Bool) (L : List (Pt × Pt)) (q : QPt) :
    stepsWind (L.map (turn d)) q = if d then stepsWind L q else - stepsWind L q := by
  induction L with
  | nil => cases d <;> rfl
  | cons e L ih =>
    have h : stepsWind ((e :: L).map (turn d)) q = edgeWind (turn d e).1 (turn d e).2 q + stepsWind (L.map (turn d)) q := rfl
    have h' : stepsWind (e :: L) q = edgeWind e.1 e.2 q + stepsWind L q := rfl
    rw [h, h', ih]
    cases d
    · simp only [turn, Bool.false_eq_true, if_false, Prod.fst_swap, Prod.snd_swap]
      rw [edgeWind_swap]; ring
    · simp [turn]

theorem walkSides_wind (walks : List (Bool × List Pt)) (q : QPt) : stepsWind (walkSides walks) q =
    (walks.map fun w => if w.1 then polyWind w.2 q else - polyWind w.2 q).sum := by
  induction walks with
  | nil => rfl
  | cons w ws ih =>
    have : walkSides (w :: ws) = (polyEdges w.2).map (turn w.1) ++ walkSides ws := rfl
    rw [this, stepsWind_append, ih, stepsWind_turn]
    rfl

/-- Change of "inside" across an edge. -/
noncomputable def insideJump (rule : FillRule) (v : Unit → Int) : Int := if rule.inside (v ()) then 1 else 0

/-- The filled sides of a noded edge, as steps with the filled side on their left. -/
noncomputable def edgeSides (rule : FillRule) (segs : List (Seg CountStr)) (s : Seg CountStr) : List (Pt × Pt) :=
  (if rule.inside (botW CountStr.subj segs s + s.c.subj) then [(s.a, s.b)] else []) ++
    (if rule.inside (botW CountStr.subj segs s) then [(s.b, s.a)] else [])

theorem sideSteps_fill (rule : FillRule) (segs : List (Seg CountStr)) (s : Seg CountStr) :
    sideSteps s.a s.b (fillOfStr rule segs s &&& SUBJ_BOTH) = edgeSides rule segs s := by
  have k : ∀ p q bk fw : Bool, (mkFill p q bk fw &&& SUBJ_BOTH &&& SUBJ_TOP == SUBJ_TOP) = p ∧
      (mkFill p q bk fw &&& SUBJ_BOTH &&& SUBJ_BOTTOM == SUBJ_BOTTOM) = q := by decide
  unfold sideSteps edgeSides fillOfStr
  simp only [(k _ _ _ _).1, (k _ _ _ _).2]

theorem edgeSides_deg (rule : FillRule) (segs : List (Seg CountStr)) (s : Seg CountStr) (p : Pt) :
    ((outDeg (edgeSides rule segs s) p : Int) - inDeg (edgeSides rule segs s) p) =
      jump (fun _ : Unit => CountStr.subj) (insideJump rule) segs s *
        ((if s.a = p then 1 else 0) - (if s.b = p then 1 else 0)) := by
  unfold edgeSides jump insideJump bvec cvec
  simp only [Pi.add_apply]
  cases rule.inside (botW CountStr.subj segs s + s.c.subj) <;> cases rule.inside (botW CountStr.subj segs s) <;>
    simp only [if_true, Bool.false_eq_true, if_false, List.nil_append, List.append_nil, List.cons_append,
      outDeg_cons, inDeg_cons, outDeg, inDeg, List.countP_nil] <;>
    by_cases h1 : s.a = p <;> by_cases h2 : s.b = p <;> simp [h1, h2]

theorem edgeSides_wind (rule : FillRule) (segs : List (Seg CountStr)) (s : Seg CountStr) (q : QPt) :
    stepsWind (edgeSides rule segs s) q =
      jump (fun _ : Unit => CountStr.subj) (insideJump rule) segs s * edgeWind s.a s.b q := by
  unfold edgeSides jump insideJump bvec cvec stepsWind
  simp only [Pi.add_apply]
  cases rule.inside (botW CountStr.subj segs s + s.c.subj) <;> cases rule.inside (botW CountStr.subj segs s) <;>
    simp [edgeWind_swap s.a s.b]

theorem outDeg_append (L M : List (Pt × Pt)) (p : Pt) : outDeg (L ++ M) p = outDeg L p + outDeg M p := by
  unfold outDeg; exact List.countP_append
theorem inDeg_append (L M : List (Pt × Pt)) (p : Pt) : inDeg (L ++ M) p = inDeg L p + inDeg M p := by
  unfold inDeg; exact List.countP_append

theorem edgeSides_even (rule : FillRule) {segs : List (Seg CountStr)} (hp : Planar segs) (hc : Closed CountStr.subj segs) :
    EvenSteps (segs.flatMap (edgeSides rule segs)) := by
  intro p
  have hb := jumps_closed (fun _ : Unit => CountStr.subj) (insideJump rule) hp (fun _ => hc)
    (fun x => if x = p then 1 else 0)
  have key : ∀ L : List (Seg CountStr), ((outDeg (L.flatMap (edgeSides rule segs)) p : Int) - inDeg (L.flatMap (edgeSides rule segs)) p) =
      segSum id (fun a b => (if a = p then 1 else 0) - (if b = p then 1 else 0))
        (L.map fun s => ⟨s.a, s.b, jump (fun _ : Unit => CountStr.subj) (insideJump rule) segs s⟩) := by
    intro L
    induction L with
    | nil => rfl
    | cons s L ih =>
      rw [List.flatMap_cons, outDeg_append, inDeg_append, List.map_cons, segSum_cons, ← ih]
      have := edgeSides_deg rule segs s p
      simp only [id]
      push_cast
      linarith
  have := key segs
  unfold jumps at hb
  rw [hb] at this
  omega

theorem edgesSides_wind (rule : FillRule) {segs : List (Seg CountStr)} (hp : Planar segs) (hc : Closed CountStr.subj segs)
    (q : QPt) : stepsWind (segs.flatMap (edgeSides rule segs)) q =
      if rule.inside (segsWind CountStr.subj segs q) then 1 else 0 := by
  have h := jumps_wind (fun _ : Unit => CountStr.subj) (insideJump rule) hp (fun _ => hc) q
  have z : insideJump rule 0 = 0 := by unfold insideJump; cases rule <;> rfl
  rw [z, sub_zero] at h
  have key : ∀ L : List (Seg CountStr), stepsWind (L.flatMap (edgeSides rule segs)) q =
      segsWind id (L.map fun s => ⟨s.a, s.b, jump (fun _ : Unit => CountStr.subj) (insideJump rule) segs s⟩) q := by
    intro L
    induction L with
    | nil => rfl
    | cons s L ih =>
      rw [List.flatMap_cons, stepsWind_append, List.map_cons, segsWind_cons, ← ih, edgeSides_wind]; rfl
  rw [key segs]
  exact h

/-- C30: for any shape, cutting lines, fill rule, strategy and precision, the extraction of the sliced shapes
never gets stuck; its walks are closed, and their steps are exactly the filled sides of the edges `r` left by
the splitting phase, each side once. A side is represented by the edge directed so that the side is on its
left; a walk is directed so that the filled sides are on the left (`w.1 = true`) or on the right
(`w.1 = false`). `top s` / `bot s` say whether the left / right side of the edge is filled, by the winding
number of the shape close to any inner point of the edge. Consequently the walks, all turned counterclockwise
(filled side on the left), wind exactly once around the points inside and not at all around the others.
(For strategies other than `list` the splitting loop stops with two edges whether or not they cross, so more
than two edges are required there.) -/
theorem C30_slice_walks (rule : FillRule) (st : Strategy) (sr : SnapRadius)
    (tree : TreeOracle CountStr) (ht : tree.Ok) (sc : ScanOracle CountStr) (hsc : sc.Ok) (fuel : Nat)
    (sortE : List End → List End) (hE : EndSort sortE) (shape paths contours : List (List Pt))
    (hf : FragOk st sr (stringSegments shape paths contours))
    (r : List (Seg CountStr))
    (hr : nodedEdges st sr tree fuel (stringSegments shape paths contours) = some r)
    (hn : st = .list ∨ 2 < r.length) :
    ∃ (g : Graph) (walks : List (Bool × List Pt)) (top bot : Seg CountStr → Bool),
      stringGraph rule st sr tree sc fuel sortE (stringSegments shape paths contours) = some g ∧
      sliceWalks g = some walks ∧ (∀ w ∈ walks, w.2 ≠ []) ∧
      (walks.flatMap fun w => (polyEdges w.2).map fun e => if w.1 then e else (e.2, e.1)).Perm
        (r.flatMap fun s => (if top s then [(s.a, s.b)] else []) ++ (if bot s then [(s.b, s.a)] else [])) ∧
      (∀ s ∈ r, ∀ m : QPt, inSeg m s.a s.b → ∃ ε : ℚ, 0 < ε ∧ ∀ δ, 0 < δ → δ < ε →
        top s = rule.inside (segsWind CountStr.subj r (leftOf s.a s.b m δ)) ∧
        bot s = rule.inside (segsWind CountStr.subj r (rightOf s.a s.b m δ))) ∧
      ∀ q : QPt, (walks.map fun w => if w.1 then polyWind w.2 q else - polyWind w.2 q).sum =
        if rule.inside (segsWind CountStr.subj r q) then 1 else 0 := by
  obtain ⟨hp, hb⟩ := string_planar ht hf hr hn
  have hlinks := buildString_eq (inc := fun _ => true) (rule := rule) hsc hr hp hb
  rw [List.filter_true] at hlinks
  obtain ⟨g, V, h1, h2, h3⟩ := Graph.new_spec hE (links := r.map fun s => ⟨s.a, 0, s.b, 0, fillOfStr rule r s⟩)
    ⟨by
      intro l hl
      obtain ⟨s, hs, rfl⟩ := List.mem_map.1 hl
      exact hp.lt s hs,
    by
      rw [List.pairwise_map]
      refine hp.sorted.imp ?_
      intro s t hst hlt
      rcases hst with h | ⟨h, -⟩
      · exact Pt.lt_asymm h hlt
      · rw [h] at hlt; exact Pt.lt_irrefl _ hlt⟩
  -- the sides of the links
  have hsides : allSides g.links (filterSlice g.links) = r.flatMap (edgeSides rule r) := by
    have e : ∀ L : List Link, allSides L (filterSlice L) =
        (L.map fun l => (l.a, l.b, l.fill)).flatMap fun x => sideSteps x.1 x.2.1 (x.2.2 &&& SUBJ_BOTH) := by
      intro L
      unfold allSides filterSlice
      induction L with
      | nil => rfl
      | cons l L ih => simp only [List.map_cons, List.zip_cons_cons, List.flatMap_cons]; rw [ih]
    rw [e, h3, List.map_map, List.flatMap_map]
    congr 1
    funext s
    exact sideSteps_fill rule r s
  have hF : FillsOk g (filterSlice g.links) := by
    refine ⟨by unfold filterSlice; simp, fun f hf => ?_⟩
    unfold filterSlice at hf
    obtain ⟨l, -, rfl⟩ := List.mem_map.1 hf
    unfold Small
    rw [BitVec.and_assoc, BitVec.and_self]
  have hlen : (filterSlice g.links).length = g.links.length := hF.len
  have hal := allSides_length g.links (filterSlice g.links)
  obtain ⟨walks, a1, a2, a3⟩ := sliceLoop_spec h2 (3 * g.links.length + 1) 0 (filterSlice g.links) [] hF
    (by rw [hsides]; exact edgeSides_even rule hp hb) (by intro j h; omega) (by omega)
  have a3' : (walkSides walks).Perm (r.flatMap (edgeSides rule r)) := by
    rw [← hsides]; simpa [walkSides] using a3.symm
  refine ⟨g, walks, fun s => rule.inside (botW CountStr.subj r s + s.c.subj),
    fun s => rule.inside (botW CountStr.subj r s), ?_, a1, fun w hw => (a2 w hw).resolve_left (by simp), ?_, ?_, ?_⟩
  · unfold stringGraph
    rw [hlinks, Option.bind_some, h1]
  · exact a3'
  · intro s hs m hm
    obtain ⟨ε, e0, he⟩ := hp.near hb hs hm
    refine ⟨ε, e0, fun δ d0 d1 => ?_⟩
    obtain ⟨b1, b2⟩ := he δ d0 d1
    rw [b1, b2]; exact ⟨rfl, rfl⟩
  · intro q
    rw [← walkSides_wind, stepsWind_perm a3', edgesSides_wind rule hp hb]

end IOverlay
