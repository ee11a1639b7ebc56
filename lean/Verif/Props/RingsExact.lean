/-
C83: which of the contours that do not touch come back: exactly those that separate result from non-result.
-/
import Verif.Props.Rings

namespace IOverlay

/-- Whether a point belongs to the result, by the winding numbers of the given contours. -/
def Selected (r : OverlayRule) (rule : FillRule) (subj clip : List (List Pt)) (q : QPt) : Prop :=
  r.op (rule.inside (polysWind subj q)) (rule.inside (polysWind clip q)) = true

/-- At every inner point of the edge, `P` holds for the points close to it on its two sides. -/
def BothSides (e : Pt × Pt) (P : QPt → QPt → Prop) : Prop :=
  ∀ m, inSeg m e.1 e.2 → ∃ ε : ℚ, 0 < ε ∧ ∀ δ, 0 < δ → δ < ε → P (leftOf e.1 e.2 m δ) (rightOf e.1 e.2 m δ)

theorem key_withAB {C : Type} (e : Pt × Pt) (d i : C) :
    ((withAB e.1 e.2 d i).a, (withAB e.1 e.2 d i).b) = leftToRight e := by
  unfold withAB leftToRight
  split <;> rfl

theorem same_ring {cs : List (List Pt)} (h : cs.flatten.Nodup) {c c' : List Pt} (hc : c ∈ cs) (hc' : c' ∈ cs) {p : Pt}
    (q1 : p ∈ c) (q2 : p ∈ c') : c = c' := by
  have hdis := (List.nodup_flatten.1 h).2
  obtain ⟨i, hi, rfl⟩ := List.mem_iff_getElem.1 hc
  obtain ⟨j, hj, rfl⟩ := List.mem_iff_getElem.1 hc'
  rcases lt_trichotomy i j with hij | rfl | hij
  · exact absurd q2 (List.pairwise_iff_getElem.1 hdis i j hi hj hij q1)
  · rfl
  · exact absurd q1 (List.pairwise_iff_getElem.1 hdis j i hj hi hij q2)

/-- The given edges, each once. -/
theorem rings_keys {cs : List (List Pt)} (h : SeparateRings cs) : ((cs.flatMap polyEdges).map leftToRight).Nodup := by
  have hfst : ((cs.flatMap polyEdges).map (·.1)).Nodup := by
    have : (cs.flatMap polyEdges).map (·.1) = cs.flatten := by
      rw [List.map_flatMap]
      simp only [polyEdges_fst]
      exact List.flatMap_id'
    rw [this]; exact h.vertices
  have inj : ∀ e ∈ cs.flatMap polyEdges, ∀ f ∈ cs.flatMap polyEdges, e.1 = f.2 → e.2 = f.1 → False := by
    intro e he f hf h1 h2
    obtain ⟨c, hc, he⟩ := List.mem_flatMap.1 he
    obtain ⟨c', hc', hf⟩ := List.mem_flatMap.1 hf
    have q2 := (polyEdges_mem hf).2
    rw [← h1] at q2
    obtain rfl := same_ring h.vertices hc hc' (polyEdges_mem he).1 q2
    refine no_back ((List.nodup_flatten.1 h.vertices).1 c hc) (h.three c hc) (p := e.1) (q := e.2) he ?_
    have : f = (e.2, e.1) := Prod.ext h2.symm h1.symm
    rw [← this]; exact hf
  refine List.Nodup.map_on ?_ hfst.of_map
  intro e he f hf hef
  have fin : e.1 = f.1 → e = f := fun h => List.inj_on_of_nodup_map hfst he hf h
  unfold leftToRight at hef
  split at hef <;> split at hef
  · exact hef
  · exact (inj e he f hf (congrArg Prod.fst hef) (congrArg Prod.snd hef)).elim
  · exact (inj e he f hf (congrArg Prod.snd hef) (congrArg Prod.fst hef)).elim
  · exact fin (congrArg Prod.snd hef)

theorem rings_registered {subj clip : List (List Pt)} (h : SeparateRings (subj ++ clip)) :
    ((overlaySegments subj clip : List (Seg CountBool)).map fun s => (s.a, s.b)).Perm
      (((subj ++ clip).flatMap polyEdges).map leftToRight) := by
  have key : ∀ (d i : CountBool) (l : List (List Pt)), (∀ c ∈ l, c ∈ subj ++ clip) →
      ((l.flatMap (appendPath d i)).map fun s => (s.a, s.b)).Perm ((l.flatMap polyEdges).map leftToRight) := by
    intro d i l
    induction l with
    | nil => intro _; exact List.Perm.refl _
    | cons c l ih =>
      intro hl
      rw [List.flatMap_cons, List.flatMap_cons, List.map_append, List.map_append]
      have hc := hl c (by simp)
      refine List.Perm.append ?_ (ih fun c hc => hl c (by simp [hc]))
      refine ((appendPath_turns d i (h.turns c hc) (h.three c hc)).map _).trans ?_
      rw [List.map_map]
      have : ((fun s : Seg CountBool => (s.a, s.b)) ∘ fun e : Pt × Pt => withAB e.1 e.2 d i) = leftToRight :=
        funext fun e => key_withAB e d i
      rw [this]
  unfold overlaySegments
  rw [List.map_append, List.flatMap_append, List.map_append]
  exact (key _ _ subj fun c hc => List.mem_append_left _ hc).append (key _ _ clip fun c hc => List.mem_append_right _ hc)

theorem leftToRight_cases {e : Pt × Pt} {a b : Pt} (h : (a, b) = leftToRight e) : e = (a, b) ∨ e = (b, a) := by
  unfold leftToRight at h
  split at h
  · exact Or.inl h.symm
  · right
    simp only [Prod.mk.injEq] at h
    exact Prod.ext h.2.symm h.1.symm

/-- No given edge is lost before filling. -/
theorem rings_segs {subj clip : List (List Pt)} (h : SeparateRings (subj ++ clip)) {c : List Pt} (hc : c ∈ subj ++ clip)
    {e : Pt × Pt} (he : e ∈ polyEdges c) :
    ∃ s ∈ mergeIfNeeded (sortSegs (overlaySegments subj clip : List (Seg CountBool))), e = (s.a, s.b) ∨ e = (s.b, s.a) := by
  have hp := rings_registered h
  have hm : leftToRight e ∈ (overlaySegments subj clip : List (Seg CountBool)).map fun s => (s.a, s.b) :=
    hp.mem_iff.2 (List.mem_map_of_mem (List.mem_flatMap.2 ⟨c, hc, he⟩))
  obtain ⟨s, hsm, hse⟩ := List.mem_map.1 hm
  refine ⟨s, ?_, leftToRight_cases hse⟩
  rw [mergeIfNeeded_mem _ (sortSegs_sorted _) (fun s hs => overlaySegments_nonempty subj clip s ((sortSegs_perm _).mem_iff.1 hs))]
  refine ⟨(keySum_unique ?_ ((sortSegs_perm _).mem_iff.2 hsm)).symm, overlaySegments_nonempty subj clip s hsm⟩
  exact (((sortSegs_perm _).map _).nodup_iff).2 (hp.nodup_iff.2 (rings_keys h))

theorem not_closed_of_nodup {c : List Pt} (h : c.Nodup) (h3 : 3 ≤ c.length) : NotClosedExplicitly c := by
  intro _ he
  rcases c with _ | ⟨a, l⟩
  · simp at h3
  rcases l.eq_nil_or_concat with rfl | ⟨l, b, rfl⟩
  · simp at h3
  · rw [List.concat_eq_append] at h he
    have : (a :: (l ++ [b])).getLast? = some b := by
      rw [← List.cons_append, List.getLast?_concat]
    rw [List.head?_cons, this] at he
    obtain rfl := Option.some.inj he
    rw [List.nodup_cons] at h
    exact h.1 (by simp)

/-- The counts on both sides of an edge. -/
theorem edge_sides {rule : FillRule} {r : OverlayRule} {subj clip : List (List Pt)} {segs : List (Seg CountBool)}
    (hok : EdgesOk segs) (hw : ∀ q, segsWind CountBool.subj segs q = polysWind subj q ∧ segsWind CountBool.clip segs q = polysWind clip q)
    {s : Seg CountBool} (hs : s ∈ segs) {e : Pt × Pt} (he : e = (s.a, s.b) ∨ e = (s.b, s.a)) :
    BothSides e fun p q => (Selected r rule subj clip q ↔ ruleAt rule r (botP segs s) = true) ∧
      (Selected r rule subj clip p ↔ ruleAt rule r (botP segs s + cpair s) = true) := by
  intro m hm
  have hm' : inSeg m s.a s.b := by
    rcases he with rfl | rfl
    · exact hm
    · obtain ⟨t, t0, t1, hx, hy⟩ := hm
      exact ⟨1 - t, by linarith, by linarith, by rw [hx]; ring, by rw [hy]; ring⟩
  obtain ⟨ε1, p1, n1⟩ := hok.planar.near hok.subj hs hm'
  obtain ⟨ε2, p2, n2⟩ := hok.planar.near hok.clip hs hm'
  refine ⟨min ε1 ε2, lt_min p1 p2, fun δ d0 d1 => ?_⟩
  obtain ⟨a1, a2⟩ := n1 δ d0 (lt_of_lt_of_le d1 (min_le_left _ _))
  obtain ⟨b1, b2⟩ := n2 δ d0 (lt_of_lt_of_le d1 (min_le_right _ _))
  have l : leftOf e.1 e.2 m δ = leftOf s.a s.b m δ := by
    rcases he with rfl | rfl
    · rfl
    · unfold leftOf
      simp only [eq_comm]
  have r' : rightOf e.1 e.2 m δ = rightOf s.a s.b m δ := by
    rcases he with rfl | rfl
    · rfl
    · unfold rightOf
      simp only [eq_comm]
  rw [l, r']
  unfold Selected
  rw [← (hw _).1, ← (hw _).2, ← (hw _).1, ← (hw _).2, a1, a2, b1, b2]
  exact ⟨Iff.rfl, Iff.rfl⟩

/-- C83 (which contours come back): a given contour comes back if and only if the operation selects the points on one side of
its edges and not those on the other side - the same for each of its edges. -/
theorem C83_exact {k : Config} {x : Externals} (ha : Assumed k x) (hcl : CleanKeepsTurns x.clean) {subj clip : List (List Pt)}
    (hf : FragFor k subj clip) (hcs : SeparateRings (subj ++ clip)) (r : OverlayRule) (rule : FillRule) (cw : Bool)
    {shapes : List (List (List Pt))} (hs : overlayCustom k x r rule cw 0 (overlaySegments subj clip) = some shapes)
    {c : List Pt} (hc : c ∈ subj ++ clip) {e : Pt × Pt} (he : e ∈ polyEdges c) :
    ((∃ d ∈ shapes.flatten, RingOf d c) →
      BothSides e fun p q => ¬ (Selected r rule subj clip p ↔ Selected r rule subj clip q)) ∧
    ((¬ ∃ d ∈ shapes.flatten, RingOf d c) →
      BothSides e fun p q => (Selected r rule subj clip p ↔ Selected r rule subj clip q)) := by
  obtain ⟨segs, g, V, vis, ws, hsegs, h2, hp, ht, hring, hn, hall⟩ := rings_walks ha hcl hf hcs r rule cw hs
  have hw : ∀ q, segsWind CountBool.subj segs q = polysWind subj q ∧ segsWind CountBool.clip segs q = polysWind clip q := by
    intro q
    have hnd := (List.nodup_flatten.1 hcs.vertices).1
    have hnc : ∀ c ∈ subj ++ clip, NotClosedExplicitly c := fun c hc => not_closed_of_nodup (hnd c hc) (hcs.three c hc)
    obtain ⟨w1, w2, -⟩ := C04_overlay_winding subj clip (fun c hc => hnc c (List.mem_append_left _ hc))
      (fun c hc => hnc c (List.mem_append_right _ hc)) q
    rw [← w1, ← w2, hsegs]
    constructor
    · rw [segsWind_eq_segSum, segsWind_eq_segSum, mergeIfNeeded_segSum isComp_subj, segSum_perm _ _ (sortSegs_perm _)]
    · rw [segsWind_eq_segSum, segsWind_eq_segSum, mergeIfNeeded_segSum isComp_clip, segSum_perm _ _ (sortSegs_perm _)]
  constructor
  · rintro ⟨d, hd, hr⟩
    obtain ⟨w, hwm, rfl⟩ := List.mem_map.1 (hp.mem_iff.1 hd)
    obtain ⟨i, hi, l, l1, l2⟩ := trail_link (ht w hwm) ((hr.side e).2 (Or.inl he))
    have hv := ((hall i).1 (List.mem_flatMap.2 ⟨w, hwm, hi⟩)).2
    obtain ⟨s, hsm, s1, s2, -, s4⟩ := h2.unvisited l1 hv
    rw [← s1, ← s2] at l2
    intro m hm
    obtain ⟨ε, p, h⟩ := edge_sides h2.edges hw (rule := rule) (r := r) hsm l2 m hm
    refine ⟨ε, p, fun δ d0 d1 => ?_⟩
    obtain ⟨x1, x2⟩ := h δ d0 d1
    rw [x1, x2]
    unfold keptB at s4
    revert s4
    cases ruleAt rule r (botP segs s) <;> cases ruleAt rule r (botP segs s + cpair s) <;> simp
  · intro hno
    obtain ⟨s, hsm, hse⟩ := rings_segs hcs hc he
    rw [← hsegs] at hsm
    have hk : keptB rule r segs s = false := by
      by_contra hk
      rw [Bool.not_eq_false] at hk
      apply hno
      obtain ⟨i, l, i1, i2, i3, i4⟩ := h2.kept hsm hk
      have hi : i < g.links.length := (List.getElem?_eq_some_iff.1 i1).1
      obtain ⟨w, hwm, hiw⟩ := List.mem_flatMap.1 ((hall i).2 ⟨hi, i2⟩)
      obtain ⟨c', hc', hr⟩ := hring w hwm
      refine ⟨w.raw, hp.mem_iff.2 (List.mem_map.2 ⟨w, hwm, rfl⟩), ?_⟩
      have hsd : SideOf w.raw (l.a, l.b) := by
        obtain ⟨hl, hget⟩ := List.forall₂_iff_get.1 (ht w hwm)
        obtain ⟨n, hn', rfl⟩ := List.mem_iff_getElem.1 hiw
        obtain ⟨l', l1, l2⟩ := hget n hn' (by omega)
        rw [List.get_eq_getElem] at l1 l2
        rw [i1] at l1
        obtain rfl := Option.some.inj l1
        rcases l2 with l2 | l2
        · left; rw [← l2]; exact List.getElem_mem _
        · right
          have : (l.a, l.b).swap = (l.b, l.a) := rfl
          rw [this, ← l2]; exact List.getElem_mem _
      have q1 : l.a ∈ c' := by
        rcases (hr.side _).1 hsd with h | h
        · exact (polyEdges_mem h).1
        · exact (polyEdges_mem h).2
      have q2 : l.a ∈ c := by
        rw [i3]
        rcases hse with h | h
        · have := (polyEdges_mem he).1; rwa [h] at this
        · have := (polyEdges_mem he).2; rwa [h] at this
      rw [same_ring hcs.vertices hc hc' q2 q1]; exact hr
    intro m hm
    obtain ⟨ε, p, h⟩ := edge_sides h2.edges hw (rule := rule) (r := r) hsm hse m hm
    refine ⟨ε, p, fun δ d0 d1 => ?_⟩
    obtain ⟨x1, x2⟩ := h δ d0 d1
    rw [x1, x2]
    unfold keptB at hk
    revert hk
    cases ruleAt rule r (botP segs s) <;> cases ruleAt rule r (botP segs s + cpair s) <;> simp

/-- The hypotheses of `C83_exact` are met by the contours of `exRings`, some as subject and some as clip. -/
example : Assumed exConfig exRaw ∧ CleanKeepsTurns exRaw.clean ∧ FragFor exConfig (exRings.take 1) (exRings.drop 1) ∧
    SeparateRings (exRings.take 1 ++ exRings.drop 1) ∧ ((⟨2, 2⟩, ⟨8, 3⟩) : Pt × Pt) ∈ polyEdges [⟨2, 2⟩, ⟨8, 3⟩, ⟨5, 7⟩] :=
  ⟨exRaw_assumed.1, fun _ _ => rfl, FragOk.list _ _, exRings_separate, by decide⟩

/-- The difference returns the square and the triangle in it, not the one beside it. -/
example : overlayCustom exConfig exRaw .difference .nonZero false 0 (overlaySegments (exRings.take 1) (exRings.drop 1)) =
    some [[[⟨0, 10⟩, ⟨0, 0⟩, ⟨10, 0⟩, ⟨10, 10⟩], [⟨2, 2⟩, ⟨5, 7⟩, ⟨8, 3⟩]]] := by decide +kernel

end IOverlay
