/-
C83: contours that have nothing to do with each other come back as they are.
-/
import Verif.RingWalk
import Verif.Props.Apart
import Verif.Props.Total

namespace IOverlay

/-! ### specification -/

/-- The closed polygon turns at every vertex. -/
def TurnsEverywhere (c : List Pt) : Prop :=
  ∀ e ∈ polyEdges c, ∀ f ∈ polyEdges c, e.2 = f.1 → area2 e.1 e.2 f.2 ≠ 0

instance (c : List Pt) : Decidable (TurnsEverywhere c) := by unfold TurnsEverywhere; infer_instance

/-- Polygons without common vertices, turning at every vertex; edges have no points in common except for the vertex at which one
follows the other. -/
structure SeparateRings (cs : List (List Pt)) : Prop where
  three : ∀ c ∈ cs, 3 ≤ c.length
  vertices : cs.flatten.Nodup
  turns : ∀ c ∈ cs, TurnsEverywhere c
  meet : ∀ e ∈ cs.flatMap polyEdges, ∀ f ∈ cs.flatMap polyEdges, e ≠ f → MeetAtEnds e.1 e.2 f.1 f.2

/-- Cleaning leaves a contour alone that turns at every vertex. -/
def CleanKeepsTurns (clean : List Pt → List Pt × Bool) : Prop := ∀ c, TurnsEverywhere c → (clean c).1 = c

/-! ### registered edges -/

theorem triples_pathSteps : ∀ (l : List Pt), ∀ t ∈ triples l, (t.1, t.2.1) ∈ pathSteps l ∧ (t.2.1, t.2.2) ∈ pathSteps l := by
  intro l
  induction l with
  | nil => intro t ht; simp [triples] at ht
  | cons a l ih =>
    rcases l with _ | ⟨b, _ | ⟨c, l⟩⟩
    · intro t ht; simp [triples] at ht
    · intro t ht; simp [triples] at ht
    · intro t ht
      rw [triples, List.mem_cons] at ht
      rw [pathSteps_cons_cons]
      rcases ht with rfl | ht
      · exact ⟨by simp, by rw [pathSteps_cons_cons]; simp⟩
      · exact ⟨List.mem_cons_of_mem _ (ih t ht).1, List.mem_cons_of_mem _ (ih t ht).2⟩

theorem triples_mid : ∀ (a b : Pt) (l : List Pt) (z : Pt), (triples (a :: b :: l ++ [z])).map (·.2.1) = b :: l := by
  intro a b l
  induction l generalizing a b with
  | nil => intro z; rfl
  | cons c l ih =>
    intro z
    have := ih b c z
    simp only [List.cons_append, triples, List.map_cons] at this ⊢
    rw [this]

theorem cyclic_turns {c : List Pt} (h : TurnsEverywhere c) (hl : 2 ≤ c.length) :
    ∀ t ∈ cyclicTriples c, area2 t.1 t.2.1 t.2.2 ≠ 0 := by
  rcases c with _ | ⟨p, _ | ⟨q, r⟩⟩
  · simp at hl
  · simp at hl
  intro t ht
  obtain ⟨h1, h2⟩ := triples_pathSteps _ t ht
  have e : pathSteps (p :: q :: r ++ (p :: q :: r).take 2) = polyEdges (p :: q :: r) ++ [(p, q)] := by
    have : (p :: q :: r ++ (p :: q :: r).take 2) = (p :: q :: r ++ [p]) ++ [q] := by simp
    rw [this, pathSteps_append (a := p) (by rw [List.getLast?_concat]), ← polyEdges_eq_pathSteps (p := p) rfl]
  have hpq : (p, q) ∈ polyEdges (p :: q :: r) := by
    rw [polyEdges_eq_pathSteps (p := p) rfl]; simp [pathSteps_cons_cons]
  have mem : ∀ e, e ∈ polyEdges (p :: q :: r) ++ [(p, q)] → e ∈ polyEdges (p :: q :: r) := by
    intro e he
    rcases List.mem_append.1 he with he | he
    · exact he
    · rw [List.mem_singleton.1 he]; exact hpq
  rw [e] at h1 h2
  exact h _ (mem _ h1) _ (mem _ h2) rfl

/-- A contour that turns everywhere registers its own edges. -/
theorem appendPath_turns {C : Type} [WindingCount C] (d i : C) {c : List Pt} (h : TurnsEverywhere c) (hl : 3 ≤ c.length) :
    (appendPath d i c).Perm ((polyEdges c).map fun e => withAB e.1 e.2 d i) := by
  have ht := cyclic_turns h (by omega)
  rw [appendPath_corners d i c (fun t htt => Or.inl (ht t htt))]
  refine List.Perm.map _ ?_
  have hcor : corners c = (cyclicTriples c).map fun t => t.2.1 := by
    unfold corners
    rw [List.filter_eq_self.2]
    intro t htt
    simpa [isCorner] using ht t htt
  rw [hcor]
  rcases c with _ | ⟨p, _ | ⟨q, r⟩⟩
  · simp at hl
  · simp at hl
  have : cyclicTriples (p :: q :: r) = triples (p :: q :: (r ++ [p]) ++ [q]) := by
    unfold cyclicTriples; simp
  rw [this, triples_mid]
  have h2 : q :: (r ++ [p]) = (q :: r) ++ [p] := rfl
  rw [h2]
  exact polyEdges_rotate_one p (q :: r)

theorem withAB_either {C : Type} (u v : Pt) (d i : C) :
    ((withAB u v d i).a = u ∧ (withAB u v d i).b = v) ∨ ((withAB u v d i).a = v ∧ (withAB u v d i).b = u) := by
  unfold withAB
  split
  · exact Or.inl ⟨rfl, rfl⟩
  · exact Or.inr ⟨rfl, rfl⟩

theorem registered_side {subj clip : List (List Pt)} (h : SeparateRings (subj ++ clip)) :
    ∀ s ∈ (overlaySegments subj clip : List (Seg CountBool)), ∃ c ∈ subj ++ clip, SideOf c (s.a, s.b) := by
  have one : ∀ c ∈ subj ++ clip, ∀ d i : CountBool, ∀ s ∈ appendPath d i c, SideOf c (s.a, s.b) := by
    intro c hc d i s hs
    rw [(appendPath_turns d i (h.turns c hc) (h.three c hc)).mem_iff] at hs
    obtain ⟨e, he, rfl⟩ := List.mem_map.1 hs
    rcases withAB_either e.1 e.2 d i with ⟨h1, h2⟩ | ⟨h1, h2⟩ <;> rw [h1, h2]
    · exact Or.inl he
    · exact Or.inr he
  intro s hs
  unfold overlaySegments at hs
  rcases List.mem_append.1 hs with hs | hs <;> obtain ⟨c, hc, hs⟩ := List.mem_flatMap.1 hs
  · exact ⟨c, List.mem_append_left _ hc, one c (List.mem_append_left _ hc) _ _ s hs⟩
  · exact ⟨c, List.mem_append_right _ hc, one c (List.mem_append_right _ hc) _ _ s hs⟩

theorem MeetAtEnds.swap_left {a b c d : Pt} (h : MeetAtEnds a b c d) : MeetAtEnds b a c d :=
  fun p h1 h2 => ⟨(h p (onSeg_symm h1) h2).1.symm, (h p (onSeg_symm h1) h2).2⟩

theorem MeetAtEnds.swap_right {a b c d : Pt} (h : MeetAtEnds a b c d) : MeetAtEnds a b d c :=
  fun p h1 h2 => ⟨(h p h1 (onSeg_symm h2)).1, (h p h1 (onSeg_symm h2)).2.symm⟩

/-- Nothing is cut. -/
theorem rings_noded {subj clip : List (List Pt)} (h : SeparateRings (subj ++ clip)) :
    Noded (mergeIfNeeded (sortSegs (overlaySegments subj clip : List (Seg CountBool)))) := by
  have hs := start_sorted (overlaySegments subj clip : List (Seg CountBool))
  have hside : ∀ s ∈ mergeIfNeeded (sortSegs (overlaySegments subj clip : List (Seg CountBool))),
      ∃ c ∈ subj ++ clip, SideOf c (s.a, s.b) := by
    intro s hs
    obtain ⟨e, h1, h2, h3⟩ := mergeIfNeeded_edges _ s hs
    rw [(sortSegs_perm _).mem_iff] at h1
    rw [h2, h3]
    exact registered_side h e h1
  have hlt := start_lt (overlaySegments_lt (C := CountBool) subj clip)
  generalize mergeIfNeeded (sortSegs (overlaySegments subj clip : List (Seg CountBool))) = l at *
  unfold Noded
  refine hs.imp_of_mem ?_
  intro s t ms mt hst
  have hne : ¬ (s.a = t.a ∧ s.b = t.b) := by
    rintro ⟨e1, e2⟩
    rcases hst with h | ⟨_, h⟩
    · rw [e1] at h; exact Pt.lt_irrefl _ h
    · rw [e2] at h; exact Pt.lt_irrefl _ h
  have hne' : ¬ (s.a = t.b ∧ s.b = t.a) := by
    rintro ⟨e1, e2⟩
    have h1 := hlt s ms
    have h2 := hlt t mt
    rw [e1, e2] at h1
    exact Pt.lt_irrefl _ (Pt.lt_trans h1 h2)
  obtain ⟨c, hc, h1⟩ := hside s ms
  obtain ⟨c', hc', h2⟩ := hside t mt
  have up : ∀ {c}, c ∈ subj ++ clip → ∀ {e}, e ∈ polyEdges c → e ∈ (subj ++ clip).flatMap polyEdges := by
    intro c hc e he
    exact List.mem_flatMap.2 ⟨c, hc, he⟩
  rcases h1 with h1 | h1 <;> rcases h2 with h2 | h2
  · exact h.meet _ (up hc h1) _ (up hc' h2) (by intro e; simp only [Prod.mk.injEq] at e; exact hne e)
  · exact (h.meet _ (up hc h1) _ (up hc' h2) (by intro e; simp only [Prod.swap, Prod.mk.injEq] at e; exact hne' e)).swap_right
  · exact (h.meet _ (up hc h1) _ (up hc' h2)
      (by intro e; simp only [Prod.swap, Prod.mk.injEq] at e; exact hne' ⟨e.2, e.1⟩)).swap_left
  · exact (h.meet _ (up hc h1) _ (up hc' h2)
      (by intro e; simp only [Prod.swap, Prod.mk.injEq] at e; exact hne ⟨e.2, e.1⟩)).swap_left.swap_right

theorem rings_edges {subj clip : List (List Pt)} (h : SeparateRings (subj ++ clip)) {st : Strategy} {sr : SnapRadius}
    {tree : TreeOracle CountBool} (ht : tree.Ok) {fuel : Nat} {segs : List (Seg CountBool)}
    (hf : FragOk st sr (overlaySegments subj clip : List (Seg CountBool)))
    (he : nodedEdges st sr tree fuel (overlaySegments subj clip) = some segs) :
    segs = mergeIfNeeded (sortSegs (overlaySegments subj clip : List (Seg CountBool))) := by
  unfold nodedEdges at he
  split at he
  · rename_i hem
    rw [List.isEmpty_iff] at hem
    rw [hem, ← Option.some.inj he]
    rfl
  obtain ⟨n, hn⟩ := (C38_strategies_agree_partial st .list sr tree ht subj clip hf (FragOk.list sr _) segs).1 ⟨fuel, he⟩
  unfold splitSegments at hn
  simp only [isListSplit, if_true] at hn
  cases n with
  | zero => simp [splitLoop] at hn
  | succ n =>
    rw [splitLoop_noded (start_sorted _) (start_lt (overlaySegments_lt (C := CountBool) subj clip)) (rings_noded h)] at hn
    exact (Option.some.inj hn).symm

/-! ### the walks -/

/-- Links with the same ends are the same. -/
theorem link_unique {links : List Link} (hp : Planar (links.map Link.seg)) {i j : Nat} {l m : Link} (hi : links[i]? = some l)
    (hj : links[j]? = some m) (h : (l.a, l.b) = (m.a, m.b) ∨ (l.a, l.b) = (m.b, m.a)) : i = j := by
  have key : ∀ {i j : Nat} {l m : Link}, links[i]? = some l → links[j]? = some m → i < j →
      (l.a, l.b) = (m.a, m.b) ∨ (l.a, l.b) = (m.b, m.a) → False := by
    intro i j l m hi hj hij h
    obtain ⟨h1, e1⟩ := List.getElem?_eq_some_iff.1 hi
    obtain ⟨h2, e2⟩ := List.getElem?_eq_some_iff.1 hj
    have hs := List.pairwise_iff_getElem.1 hp.sorted i j (by simpa using h1) (by simpa using h2) hij
    rw [List.getElem_map, List.getElem_map, e1, e2] at hs
    have l1 := hp.lt _ (List.mem_map_of_mem (f := Link.seg) (List.mem_of_getElem? hi))
    have l2 := hp.lt _ (List.mem_map_of_mem (f := Link.seg) (List.mem_of_getElem? hj))
    unfold Seg.lt Link.seg at hs
    unfold Link.seg at l1 l2
    dsimp only at hs l1 l2
    simp only [Prod.mk.injEq] at h
    rcases h with ⟨a, b⟩ | ⟨a, b⟩
    · rw [a, b] at hs
      rcases hs with hs | ⟨_, hs⟩ <;> exact Pt.lt_irrefl _ hs
    · rw [a, b] at l1
      exact Pt.lt_irrefl _ (Pt.lt_trans l1 l2)
  rcases lt_trichotomy i j with hij | hij | hij
  · exact (key hi hj hij h).elim
  · exact hij
  · refine (key hj hi hij ?_).elim
    rcases h with h | h
    · exact Or.inl h.symm
    · right
      simp only [Prod.mk.injEq] at h ⊢
      exact ⟨h.2.symm, h.1.symm⟩

theorem trail_pairwise {links : List Link} (hp : Planar (links.map Link.seg)) {trail : List Nat} {L : List Pt}
    (h : ClosedTrail links trail L) (hn : trail.Nodup) : (polyEdges L).Pairwise fun e f => e ≠ f ∧ e ≠ f.swap := by
  rw [List.pairwise_iff_getElem]
  obtain ⟨hlen, hget⟩ := List.forall₂_iff_get.1 h
  intro i j hi hj hij
  obtain ⟨l, l1, l2⟩ := hget i (by omega) hi
  obtain ⟨m, m1, m2⟩ := hget j (by omega) hj
  rw [List.get_eq_getElem] at l1 l2 m1 m2
  have hne : trail[i] ≠ trail[j] := by
    intro e
    have := (List.Nodup.getElem_inj_iff hn).1 e
    omega
  have : ∀ {P : Prop}, ((l.a, l.b) = (m.a, m.b) ∨ (l.a, l.b) = (m.b, m.a)) → P :=
    fun h => (hne (link_unique hp l1 m1 h)).elim
  constructor
  · intro e
    rw [e] at l2
    apply this
    rcases l2 with l2 | l2 <;> rcases m2 with m2 | m2 <;> rw [m2] at l2 <;>
      simp only [Prod.mk.injEq] at l2 ⊢ <;> simp [l2]
  · intro e
    rw [e] at l2
    apply this
    rcases l2 with l2 | l2 <;> rcases m2 with m2 | m2 <;> rw [m2] at l2 <;>
      simp only [Prod.swap, Prod.mk.injEq] at l2 ⊢ <;> simp [l2]

section
variable {rule : FillRule} {r : OverlayRule} {segs : List (Seg CountBool)} {g : Graph} {V : List Pt} {vis : List Bool}
  (h : RunOk rule r segs g V vis) {cs : List (List Pt)} (hcs : SeparateRings cs)
  (hside : ∀ s ∈ segs, ∃ c ∈ cs, SideOf c (s.a, s.b))
include h hcs hside

theorem RunOk.link_side {i : Nat} {l : Link} (hl : g.links[i]? = some l) : ∃ c ∈ cs, SideOf c (l.a, l.b) := by
  obtain ⟨inc, F, e1, -, -⟩ := h.filter
  have hm : (l.a, l.b, l.fill) ∈ g.links.map (fun l => (l.a, l.b, l.fill)) :=
    List.mem_map_of_mem (f := fun l : Link => (l.a, l.b, l.fill)) (List.mem_of_getElem? hl)
  rw [e1] at hm
  obtain ⟨s, hs, hse⟩ := List.mem_map.1 hm
  simp only [Prod.mk.injEq] at hse
  rw [← hse.1, ← hse.2.1]
  exact hside s (List.mem_filter.1 hs).1

theorem RunOk.walk_ring {trail : List Nat} {L : List Pt} (ht : ClosedTrail g.links trail L) (h0 : trail ≠ []) (hn : trail.Nodup) :
    ∃ c ∈ cs, RingOf L c := by
  refine ring_walk hcs.vertices hcs.three ?_ ?_ (trail_pairwise h.planar ht hn)
  · rintro rfl
    cases ht
    exact h0 rfl
  · intro e he
    obtain ⟨hlen, hget⟩ := List.forall₂_iff_get.1 ht
    obtain ⟨n, hn', rfl⟩ := List.mem_iff_getElem.1 he
    obtain ⟨l, l1, l2⟩ := hget n (by omega) hn'
    obtain ⟨c, hc, hs⟩ := h.link_side hcs hside l1
    refine ⟨c, hc, ?_⟩
    rw [List.get_eq_getElem] at l2
    rcases l2 with l2 | l2 <;> rw [l2]
    · exact hs
    · exact hs.symm

end

/-- Extraction without area limit (`RunOk.extract_all`): all walks are returned, none is empty. -/
theorem RunOk.extract_trails {rule : FillRule} {r : OverlayRule} {segs : List (Seg CountBool)} {g : Graph} {V : List Pt}
    {vis : List Bool} (h : RunOk rule r segs g V vis) (clockwise : Bool) {clean : List Pt → List Pt × Bool} (hc : CleanOk clean) :
    ∃ (ws : List Walked) (e : Extracted), extractContours g r clockwise clean 0 vis = some e ∧
      e.shapes = (ws.filter fun w => !w.hole).map (fun w => (clean w.raw).1) ∧
      e.holes = (ws.filter fun w => w.hole).map (fun w => (clean w.raw).1) ∧
      (∀ w ∈ ws, ClosedTrail g.links w.trail w.raw) ∧ (∀ w ∈ ws, w.trail ≠ []) ∧
      (ws.flatMap (·.trail)).Perm ((List.range g.links.length).filter fun i => !isVisited vis i) := by
  obtain ⟨ws, e, h1, h2, h3, -, h5, h6, h7, h8, h9⟩ := h.extract clockwise clean 0
  have hval : ∀ w ∈ ws, (validate clean 0 w.raw).1 = true := by
    intro w hw
    exact validate_trail h.planar hc ((List.nodup_flatMap.1 h5).1 w hw) (h7 w hw).2 (h7 w hw).1
  have hk : ∀ b, keptContours clean 0 b ws = (ws.filter fun w => decide (w.hole = b)).map (fun w => (clean w.raw).1) := by
    intro b
    unfold keptContours
    congr 1
    refine List.filter_congr fun w hw => ?_
    rw [hval w hw, Bool.and_true]
  refine ⟨ws, e, h1, ?_, ?_, fun w hw => (h7 w hw).1, fun w hw => (h7 w hw).2, ?_⟩
  · rw [h2, hk]
    congr 1
    refine List.filter_congr fun w _ => ?_
    cases w.hole <;> rfl
  · rw [h3, hk]
    congr 1
    refine List.filter_congr fun w _ => ?_
    cases w.hole <;> rfl
  · refine (List.perm_ext_iff_of_nodup h5 (List.nodup_range.filter _)).2 fun i => ?_
    rw [List.mem_filter, List.mem_range]
    constructor
    · intro hi
      have hv := h6 i hi
      have := unvisited_lt hv
      rw [h.length] at this
      exact ⟨this, by simp [hv]⟩
    · rintro ⟨-, hv⟩
      exact h9 hval i (by simpa using hv)

/-- The side of a closed trail is one of its links. -/
theorem trail_link {links : List Link} {trail : List Nat} {L : List Pt} (ht : ClosedTrail links trail L) {e : Pt × Pt}
    (he : SideOf L e) : ∃ i ∈ trail, ∃ l, links[i]? = some l ∧ (e = (l.a, l.b) ∨ e = (l.b, l.a)) := by
  obtain ⟨hlen, hget⟩ := List.forall₂_iff_get.1 ht
  rcases he with he | he <;> obtain ⟨n, hn, e'⟩ := List.mem_iff_getElem.1 he <;>
    obtain ⟨l, l1, l2⟩ := hget n (by omega) hn <;> refine ⟨_, List.getElem_mem (by omega), l, l1, ?_⟩ <;>
    rw [List.get_eq_getElem, e'] at l2
  · exact l2
  · rcases l2 with l2 | l2
    · right; rw [← Prod.swap_swap e, l2]; rfl
    · left; rw [← Prod.swap_swap e, l2]; rfl

/-- Turning everywhere does not depend on starting vertex and direction. -/
theorem RingOf.turns {d c : List Pt} (h : RingOf d c) (ht : TurnsEverywhere c) : TurnsEverywhere d := by
  rcases h with h | h
  · intro e he f hf
    exact ht e ((polyEdges_rotated h).mem_iff.1 he) f ((polyEdges_rotated h).mem_iff.1 hf)
  · intro e he f hf hef
    rw [(polyEdges_rotated h).mem_iff, (polyEdges_reverse c).mem_iff] at he hf
    obtain ⟨e', he', rfl⟩ := List.mem_map.1 he
    obtain ⟨f', hf', rfl⟩ := List.mem_map.1 hf
    have := ht f' hf' e' he' (by simpa using hef.symm)
    intro h0
    apply this
    simp only [Prod.fst_swap, Prod.snd_swap] at h0 hef
    rw [← hef]
    unfold area2 at *
    linear_combination -h0

/-! ### C83 -/

section
variable {k : Config} {x : Externals} (ha : Assumed k x) (hcl : CleanKeepsTurns x.clean) {subj clip : List (List Pt)}
  (hf : FragFor k subj clip) (hcs : SeparateRings (subj ++ clip)) (r : OverlayRule) (rule : FillRule) (cw : Bool)
  {shapes : List (List (List Pt))} (hs : overlayCustom k x r rule cw 0 (overlaySegments subj clip) = some shapes)
include ha hcl hf hcs hs

theorem rings_walks : ∃ (segs : List (Seg CountBool)) (g : Graph) (V : List Pt) (vis : List Bool) (ws : List Walked),
    segs = mergeIfNeeded (sortSegs (overlaySegments subj clip : List (Seg CountBool))) ∧ RunOk rule r segs g V vis ∧
    shapes.flatten.Perm (ws.map (·.raw)) ∧ (∀ w ∈ ws, ClosedTrail g.links w.trail w.raw) ∧
    (∀ w ∈ ws, ∃ c ∈ subj ++ clip, RingOf w.raw c) ∧ (ws.flatMap (·.trail)).Nodup ∧
    (∀ i, i ∈ ws.flatMap (·.trail) ↔ i < g.links.length ∧ isVisited vis i = false) := by
  obtain ⟨segs, g, V, vis, h1, h2, h3⟩ := extract_oneShot ha hf hs
  have e := rings_edges hcs ha.tree hf h1
  obtain ⟨ws, ex, w1, w2, w3, w4, w5, w6⟩ := h2.extract_trails cw ha.clean
  have hperm := (h2.returned_all cw ha.clean w1 h3).1
  have hside : ∀ s ∈ segs, ∃ c ∈ subj ++ clip, SideOf c (s.a, s.b) := by
    rw [e]
    intro s hs
    obtain ⟨e, h1, h2, h3⟩ := mergeIfNeeded_edges _ s hs
    rw [(sortSegs_perm _).mem_iff] at h1
    rw [h2, h3]
    exact registered_side hcs e h1
  have hnd : (ws.flatMap (·.trail)).Nodup := by
    rw [w6.nodup_iff]
    exact (List.nodup_range).filter _
  have hring : ∀ w ∈ ws, ∃ c ∈ subj ++ clip, RingOf w.raw c := by
    intro w hw
    exact h2.walk_ring hcs hside (w4 w hw) (w5 w hw) ((List.nodup_flatMap.1 hnd).1 w hw)
  have hclean : ∀ w ∈ ws, (x.clean w.raw).1 = w.raw := by
    intro w hw
    obtain ⟨c, hc, hr⟩ := hring w hw
    exact hcl _ (hr.turns (hcs.turns c hc))
  refine ⟨segs, g, V, vis, ws, e, h2, ?_, w4, hring, hnd, ?_⟩
  · refine hperm.trans ?_
    rw [w2, w3, ← List.map_append]
    have : (ws.map (·.raw)) = ws.map (fun w => (x.clean w.raw).1) := List.map_congr_left fun w hw => (hclean w hw).symm
    rw [this]
    refine List.Perm.map _ ?_
    have := List.filter_append_perm (fun w : Walked => w.hole) ws
    refine List.Perm.trans ?_ this
    exact List.perm_append_comm
  · intro i
    rw [w6.mem_iff, List.mem_filter, List.mem_range, Bool.not_eq_true']

/-- C83: every contour of the result is one of the given contours - possibly started elsewhere or turned around - and none is
returned twice. -/
theorem C83_rings : (∀ d ∈ shapes.flatten, ∃ c ∈ subj ++ clip, RingOf d c) ∧
    shapes.flatten.Pairwise List.Disjoint := by
  obtain ⟨segs, g, V, vis, ws, -, h2, hp, ht, hring, hn, -⟩ := rings_walks ha hcl hf hcs r rule cw hs
  constructor
  · intro d hd
    obtain ⟨w, hw, rfl⟩ := List.mem_map.1 (hp.mem_iff.1 hd)
    exact hring w hw
  · refine (hp.pairwise_iff (fun h => h.symm)).2 ?_
    rw [List.pairwise_map]
    refine (List.nodup_flatMap.1 hn).2.imp_of_mem ?_
    intro w w' hw hw' hd p p1 p2
    obtain ⟨c, hc, hr⟩ := hring w hw
    obtain ⟨c', hc', hr'⟩ := hring w' hw'
    have hcc : c = c' := by
      have q1 := (hr.mem p).1 p1
      have q2 := (hr'.mem p).1 p2
      have hdis := (List.nodup_flatten.1 hcs.vertices).2
      obtain ⟨i, hi, rfl⟩ := List.mem_iff_getElem.1 hc
      obtain ⟨j, hj, rfl⟩ := List.mem_iff_getElem.1 hc'
      rcases lt_trichotomy i j with hij | rfl | hij
      · exact absurd q2 (List.pairwise_iff_getElem.1 hdis i j hi hj hij q1)
      · rfl
      · exact absurd q1 (List.pairwise_iff_getElem.1 hdis j i hj hi hij q2)
    subst hcc
    -- a common link
    rw [← polyEdges_fst w.raw] at p1
    obtain ⟨e, he, -⟩ := List.mem_map.1 p1
    have s1 : SideOf w.raw e := Or.inl he
    have s2 : SideOf w'.raw e := (hr'.side e).2 ((hr.side e).1 s1)
    obtain ⟨i, hi, l, l1, l2⟩ := trail_link (ht w hw) s1
    obtain ⟨j, hj, m, m1, m2⟩ := trail_link (ht w' hw') s2
    have hij : i = j := by
      refine link_unique h2.planar l1 m1 ?_
      rcases l2 with l2 | l2 <;> rcases m2 with m2 | m2 <;> rw [l2] at m2 <;>
        simp only [Prod.mk.injEq] at m2 ⊢ <;> simp [m2]
    exact hd hi (hij ▸ hj)

end

/-! ### even-odd: nothing is lost -/

theorem no_back {c : List Pt} (hn : c.Nodup) (hl : 3 ≤ c.length) {p q : Pt} (h : (p, q) ∈ polyEdges c) : (q, p) ∉ polyEdges c := by
  intro h'
  obtain ⟨r, hr⟩ := rotate_to h (by omega) hn
  have hn' := hr.nodup_iff.1 hn
  have hlen := hr.perm.length_eq
  rcases r with _ | ⟨z, r⟩
  · simp at hlen; omega
  · have : p = z := polyEdges_succ hn' ((polyEdges_rotated hr).mem_iff.1 h') (by
      rw [polyEdges_eq_pathSteps (p := p) rfl]; simp [pathSteps_cons_cons])
    subst this
    simp at hn'

theorem keySum_unique {l : List (Seg CountBool)} (h : (l.map fun s => (s.a, s.b)).Nodup) {t : Seg CountBool} (ht : t ∈ l) :
    keySum l t.a t.b = t.c := by
  have none : ∀ {l : List (Seg CountBool)} {a b : Pt}, (a, b) ∉ (l.map fun s => (s.a, s.b)) → keySum l a b = WindingCount.zero := by
    intro l a b
    induction l with
    | nil => intro _; rfl
    | cons s l ih =>
      intro hn
      rw [List.map_cons, List.mem_cons, not_or] at hn
      rw [keySum_cons, if_neg (by rintro ⟨rfl, rfl⟩; exact hn.1 rfl)]
      exact ih hn.2
  have add0 : ∀ c : CountBool, WindingCount.add c WindingCount.zero = c := by
    intro c; cases c; simp [WindingCount.add, WindingCount.zero]
  induction l with
  | nil => simp at ht
  | cons s l ih =>
    rw [List.map_cons, List.nodup_cons] at h
    rw [keySum_cons]
    rcases List.mem_cons.1 ht with rfl | ht
    · rw [if_pos ⟨rfl, rfl⟩, none h.1, add0]
    · rw [if_neg ?_]
      · exact ih h.2 ht
      · rintro ⟨e1, e2⟩
        apply h.1
        rw [e1, e2]
        exact List.mem_map.2 ⟨t, ht, rfl⟩

/-- Every given edge is registered once, with count 1 or -1. -/
theorem rings_count {cs : List (List Pt)} (h : SeparateRings cs) :
    ((overlaySegments cs [] : List (Seg CountBool)).map fun s => (s.a, s.b)).Nodup ∧
    (∀ s ∈ (overlaySegments cs [] : List (Seg CountBool)), s.c.subj = 1 ∨ s.c.subj = -1) ∧
    ∀ c ∈ cs, ∀ e ∈ polyEdges c, ∃ s ∈ (overlaySegments cs [] : List (Seg CountBool)), e = (s.a, s.b) ∨ e = (s.b, s.a) := by
  have hperm : (overlaySegments cs [] : List (Seg CountBool)).Perm
      ((cs.flatMap polyEdges).map fun e => withAB e.1 e.2 ⟨1, 0⟩ ⟨-1, 0⟩) := by
    have : (overlaySegments cs [] : List (Seg CountBool)) = cs.flatMap (appendPath ⟨1, 0⟩ ⟨-1, 0⟩) := by
      unfold overlaySegments
      rw [List.flatMap_nil, List.append_nil]
      rfl
    rw [this, List.map_flatMap]
    have key : ∀ l : List (List Pt), (∀ c ∈ l, c ∈ cs) → (l.flatMap (appendPath (⟨1, 0⟩ : CountBool) ⟨-1, 0⟩)).Perm
        (l.flatMap fun a => (polyEdges a).map fun e => withAB e.1 e.2 ⟨1, 0⟩ ⟨-1, 0⟩) := by
      intro l
      induction l with
      | nil => intro _; exact List.Perm.refl _
      | cons c l ih =>
        intro hl
        rw [List.flatMap_cons, List.flatMap_cons]
        have hc := hl c (by simp)
        exact (appendPath_turns _ _ (h.turns c hc) (h.three c hc)).append (ih fun c hc => hl c (by simp [hc]))
    exact key cs fun c hc => hc
  have hfst : ((cs.flatMap polyEdges).map (·.1)).Nodup := by
    have : (cs.flatMap polyEdges).map (·.1) = cs.flatten := by
      rw [List.map_flatMap]
      simp only [polyEdges_fst]
      exact List.flatMap_id'
    rw [this]; exact h.vertices
  have inj : ∀ e ∈ cs.flatMap polyEdges, ∀ f ∈ cs.flatMap polyEdges, e.1 = f.2 → e.2 = f.1 → False := by
    intro e he f hf h1 h2
    obtain ⟨c, hc, he⟩ := List.mem_flatMap.1 he
    obtain ⟨c', hc', hf⟩ := List.mem_flatMap.1 hf
    have : c = c' := by
      have q1 := (polyEdges_mem he).1
      have q2 := (polyEdges_mem hf).2
      rw [← h1] at q2
      have hdis := (List.nodup_flatten.1 h.vertices).2
      obtain ⟨i, hi, rfl⟩ := List.mem_iff_getElem.1 hc
      obtain ⟨j, hj, rfl⟩ := List.mem_iff_getElem.1 hc'
      rcases lt_trichotomy i j with hij | rfl | hij
      · exact absurd q2 (List.pairwise_iff_getElem.1 hdis i j hi hj hij q1)
      · rfl
      · exact absurd q1 (List.pairwise_iff_getElem.1 hdis j i hj hi hij q2)
    subst this
    refine no_back ((List.nodup_flatten.1 h.vertices).1 c hc) (h.three c hc) (p := e.1) (q := e.2) he ?_
    have : f = (e.2, e.1) := Prod.ext h2.symm h1.symm
    rw [← this]; exact hf
  refine ⟨?_, ?_, ?_⟩
  · rw [(hperm.map _).nodup_iff, List.map_map]
    refine List.Nodup.map_on ?_ hfst.of_map
    intro e he f hf hef
    simp only [Function.comp, Prod.mk.injEq] at hef
    have fin : e.1 = f.1 → e = f := fun h => List.inj_on_of_nodup_map hfst he hf h
    rcases withAB_either e.1 e.2 (⟨1, 0⟩ : CountBool) ⟨-1, 0⟩ with ⟨h1, h2⟩ | ⟨h1, h2⟩ <;>
      rcases withAB_either f.1 f.2 (⟨1, 0⟩ : CountBool) ⟨-1, 0⟩ with ⟨h3, h4⟩ | ⟨h3, h4⟩ <;> rw [h1, h2, h3, h4] at hef
    · exact fin hef.1
    · exact (inj e he f hf hef.1 hef.2).elim
    · exact (inj e he f hf hef.2 hef.1).elim
    · exact fin hef.2
  · intro s hs
    rw [hperm.mem_iff] at hs
    obtain ⟨e, -, rfl⟩ := List.mem_map.1 hs
    unfold withAB
    split
    · exact Or.inl rfl
    · exact Or.inr rfl
  · intro c hc e he
    refine ⟨withAB e.1 e.2 ⟨1, 0⟩ ⟨-1, 0⟩, hperm.mem_iff.2 (List.mem_map.2 ⟨e, List.mem_flatMap.2 ⟨c, hc, he⟩, rfl⟩), ?_⟩
    rcases withAB_either e.1 e.2 (⟨1, 0⟩ : CountBool) ⟨-1, 0⟩ with ⟨h1, h2⟩ | ⟨h1, h2⟩ <;> rw [h1, h2]
    · exact Or.inl rfl
    · exact Or.inr rfl

/-- C83 (even-odd): simplification under the even-odd rule returns every given contour. -/
theorem C83_evenOdd {k : Config} {x : Externals} (ha : Assumed k x) (hcl : CleanKeepsTurns x.clean) {cs : List (List Pt)}
    (hf : FragFor k cs []) (hcs : SeparateRings cs) (cw : Bool) {shapes : List (List (List Pt))}
    (hs : overlayCustom k x .subject .evenOdd cw 0 (overlaySegments cs []) = some shapes) :
    (∀ c ∈ cs, ∃ d ∈ shapes.flatten, RingOf d c) ∧ (∀ d ∈ shapes.flatten, ∃ c ∈ cs, RingOf d c) ∧
      shapes.flatten.Pairwise List.Disjoint := by
  have hcs' : SeparateRings (cs ++ []) := by rw [List.append_nil]; exact hcs
  obtain ⟨m1, m2⟩ := C83_rings ha hcl hf hcs' .subject .evenOdd cw hs
  rw [List.append_nil] at m1
  refine ⟨?_, m1, m2⟩
  obtain ⟨segs, g, V, vis, ws, hsegs, h2, hp, ht, hring, hn, hall⟩ := rings_walks ha hcl hf hcs' .subject .evenOdd cw hs
  rw [List.append_nil] at hring
  obtain ⟨n1, n2, n3⟩ := rings_count hcs
  intro c hc
  have hlen := hcs.three c hc
  obtain ⟨e, he⟩ : ∃ e, e ∈ polyEdges c := by
    rcases c with _ | ⟨p, c⟩
    · simp at hlen
    · have : p ∈ (polyEdges (p :: c)).map (·.1) := by rw [polyEdges_fst]; simp
      obtain ⟨e, he, -⟩ := List.mem_map.1 this
      exact ⟨e, he⟩
  obtain ⟨s, hsm, hse⟩ := n3 c hc e he
  have hmem : s ∈ segs := by
    rw [hsegs, mergeIfNeeded_mem _ (sortSegs_sorted _) (fun s hs => overlaySegments_nonempty cs [] s ((sortSegs_perm _).mem_iff.1 hs))]
    refine ⟨(keySum_unique ?_ ((sortSegs_perm _).mem_iff.2 hsm)).symm, overlaySegments_nonempty cs [] s hsm⟩
    exact (((sortSegs_perm _).map _).nodup_iff).2 n1
  have hk : keptB .evenOdd .subject segs s = true := by
    unfold keptB ruleAt OverlayRule.op FillRule.inside botP cpair
    simp only [Prod.fst_add]
    have key : ∀ (b c : Int), c = 1 ∨ c = -1 → ((b % 2 == 1) ^^ ((b + c) % 2 == 1)) = true := by
      intro b c hc
      rcases Int.emod_two_eq_zero_or_one b with hb | hb
      · have : (b + c) % 2 = 1 := by omega
        rw [hb, this]; rfl
      · have : (b + c) % 2 = 0 := by omega
        rw [hb, this]; rfl
    exact key _ _ (n2 s hsm)
  obtain ⟨i, l, i1, i2, i3, i4⟩ := h2.kept hmem hk
  have hi : i < g.links.length := (List.getElem?_eq_some_iff.1 i1).1
  obtain ⟨w, hw, hiw⟩ := List.mem_flatMap.1 ((hall i).2 ⟨hi, i2⟩)
  obtain ⟨c', hc', hr⟩ := hring w hw
  refine ⟨w.raw, hp.mem_iff.2 (List.mem_map.2 ⟨w, hw, rfl⟩), ?_⟩
  -- the link is a side of `w.raw`, hence of `c'`, hence `c' = c`
  have hsd : SideOf w.raw (l.a, l.b) := by
    obtain ⟨hl, hget⟩ := List.forall₂_iff_get.1 (ht w hw)
    obtain ⟨n, hn', rfl⟩ := List.mem_iff_getElem.1 hiw
    obtain ⟨l', l1, l2⟩ := hget n hn' (by omega)
    rw [List.get_eq_getElem] at l1 l2
    rw [i1] at l1
    obtain rfl := Option.some.inj l1
    rcases l2 with l2 | l2
    · left; rw [← l2]; exact List.getElem_mem _
    · right
      have : (l.a, l.b).swap = (l.b, l.a) := rfl
      rw [this, ← l2]; exact List.getElem_mem _
  have hcc : c' = c := by
    have q1 : l.a ∈ c' := by
      rcases (hr.side _).1 hsd with h | h
      · exact (polyEdges_mem h).1
      · exact (polyEdges_mem h).2
    have q2 : l.a ∈ c := by
      rw [i3]
      rcases hse with h | h
      · have := (polyEdges_mem he).1; rwa [h] at this
      · have := (polyEdges_mem he).2; rwa [h] at this
    have hdis := (List.nodup_flatten.1 hcs.vertices).2
    obtain ⟨i, hi, rfl⟩ := List.mem_iff_getElem.1 hc'
    obtain ⟨j, hj, rfl⟩ := List.mem_iff_getElem.1 hc
    rcases lt_trichotomy i j with hij | rfl | hij
    · exact absurd q2 (List.pairwise_iff_getElem.1 hdis i j hi hj hij q1)
    · rfl
    · exact absurd q1 (List.pairwise_iff_getElem.1 hdis j i hj hi hij q2)
  rw [← hcc]; exact hr

/-! ### examples -/

theorem decide_meet {e f : Pt × Pt} (he : e.1 ≠ e.2) (hf : f.1 ≠ f.2) (h : (cross ⟨e.1, e.2⟩ ⟨f.1, f.2⟩ 0).isNone = true) :
    MeetAtEnds e.1 e.2 f.1 f.2 := by
  have hs := cross_spec ⟨e.1, e.2⟩ ⟨f.1, f.2⟩ he hf 0
  generalize cross ⟨e.1, e.2⟩ ⟨f.1, f.2⟩ 0 = res at hs h
  cases hs with
  | none _ hm => exact hm
  | overlay => simp at h
  | otherEnd => simp at h
  | targetEnd => simp at h
  | middle => simp at h

/-- A square with a triangle in it and a triangle beside it, in different directions. -/
def exRings : List (List Pt) := [[⟨0, 0⟩, ⟨10, 0⟩, ⟨10, 10⟩, ⟨0, 10⟩], [⟨2, 2⟩, ⟨8, 3⟩, ⟨5, 7⟩], [⟨20, 0⟩, ⟨22, 9⟩, ⟨30, 1⟩]]

theorem exRings_separate : SeparateRings exRings where
  three := by decide
  vertices := by decide
  turns := by decide
  meet := by
    have h : ∀ e ∈ exRings.flatMap polyEdges, ∀ f ∈ exRings.flatMap polyEdges, e ≠ f →
        e.1 ≠ e.2 ∧ f.1 ≠ f.2 ∧ (cross ⟨e.1, e.2⟩ ⟨f.1, f.2⟩ 0).isNone = true := by decide +kernel
    intro e he f hf hne
    obtain ⟨h1, h2, h3⟩ := h e he f hf hne
    exact decide_meet h1 h2 h3

/-- The hypotheses of `C83_rings` and `C83_evenOdd` are met. -/
example : Assumed exConfig exRaw ∧ CleanKeepsTurns exRaw.clean ∧ FragFor exConfig exRings [] ∧ SeparateRings exRings :=
  ⟨exRaw_assumed.1, fun _ _ => rfl, FragOk.list _ _, exRings_separate⟩

end IOverlay
