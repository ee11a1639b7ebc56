/-
Properties C31 and C32: splitting a closed walk into loops.
-/
import Verif.Props.Slice
import Verif.Props.Extract

namespace IOverlay

/-- No two different points occur alternately: no `q … p … q … p`. -/
def NonInterleaved (w : List Pt) : Prop := ∀ p q : Pt, p ≠ q → ¬ [q, p, q, p].Sublist w

/-- There-and-back steps. -/
def backAndForth (l : List (Pt × Pt)) : List (Pt × Pt) := l.flatMap fun e => [(e.1, e.2), (e.2, e.1)]

/-- What holds after the points `u` of the walk. -/
structure LoopInv (u : List Pt) (s : LoopState) : Prop where
  nodup : s.path.Nodup
  sub : s.path.Sublist u
  last : s.path.getLast? = u.getLast?
  head : s.path.head? = u.head?
  known : ∀ p, (∃ k, s.map.lookup p = some k) ↔ p ∈ u
  pos : ∀ p k, s.map.lookup p = some k → p ∈ s.path → ∃ l r, s.path = l ++ [p] ++ r ∧ l.length + 1 = k
  stale : ∀ p ∈ u, p ∉ s.path → ∃ q, p ≠ q ∧ [q, p, q].Sublist u
  loops : ∀ c ∈ s.result, c.Nodup ∧ 3 ≤ c.length
  steps : ∃ (spikes : List (Pt × Pt)) (still : List Pt), (pathSteps u).Perm
    (s.result.flatMap polyEdges ++ backAndForth spikes ++ still.map (fun p => (p, p)) ++ pathSteps s.path)

theorem pathSteps_concat {l : List Pt} {p : Pt} (r : List Pt) : pathSteps (l ++ [p] ++ r) =
    pathSteps (l ++ [p]) ++ pathSteps (p :: r) := by
  induction l with
  | nil => simp [pathSteps]
  | cons x l ih =>
    cases l with
    | nil => rfl
    | cons y l =>
      have e : ∀ z : List Pt, pathSteps (x :: y :: z) = (x, y) :: pathSteps (y :: z) := fun _ => rfl
      simp only [List.cons_append] at ih ⊢
      rw [e, e, ih]; rfl

theorem polyEdges_rotate (p : Pt) (r : List Pt) : (polyEdges (r ++ [p])).Perm (polyEdges (p :: r)) := by
  cases r with
  | nil => exact List.Perm.refl _
  | cons x r =>
    have h1 : (polyEdges (x :: r ++ [p])) = pathSteps (x :: r ++ [p]) ++ [(p, x)] := by
      rw [polyEdges_eq_pathSteps (p := x) rfl, pathSteps_append (a := p) (List.getLast?_concat)]
    have h2 : polyEdges (p :: x :: r) = (p, x) :: pathSteps (x :: r ++ [p]) := by
      rw [polyEdges_eq_pathSteps (p := p) rfl]; rfl
    rw [h1, h2]
    exact List.perm_append_singleton _ _

theorem loopStep_spec {u : List Pt} {s : LoopState} (h : LoopInv u s) {p : Pt}
    (hn : NonInterleaved (u ++ [p])) : ∃ s', loopStep 0 s p = some s' ∧ LoopInv (u ++ [p]) s' := by
  unfold loopStep
  rcases hm : s.map.lookup p with _ | k
  · -- a new point
    have hpu : p ∉ u := by
      intro hp
      obtain ⟨k, hk⟩ := (h.known p).2 hp
      rw [hm] at hk; simp at hk
    have hpp : p ∉ s.path := fun hp => hpu (h.sub.subset hp)
    refine ⟨_, rfl, ?_⟩
    refine ⟨?_, ?_, by simp, ?_, ?_, ?_, ?_, h.loops, ?_⟩
    · rw [List.nodup_append]
      refine ⟨h.nodup, by simp, fun a ha b hb => ?_⟩
      rw [List.mem_singleton] at hb
      rw [hb]; exact fun e => hpp (e ▸ ha)
    · exact h.sub.append (List.Sublist.refl _)
    · simp only
      rw [List.head?_append, List.head?_append, h.head]
    · intro q
      simp only [List.lookup_cons]
      rw [List.mem_append, ← h.known q, List.mem_singleton]
      by_cases e : q = p
      · simp [e]
      · have : (q == p) = false := by simpa using e
        rw [this]; simp [e]
    · intro q k hq hqp
      simp only [List.lookup_cons] at hq
      by_cases e : q = p
      · subst e
        simp only [beq_self_eq_true] at hq
        exact ⟨s.path, [], by simp, Option.some.inj hq⟩
      · have : (q == p) = false := by simpa using e
        rw [this] at hq
        rcases List.mem_append.1 hqp with hq' | hq'
        · obtain ⟨l, r, e1, e2⟩ := h.pos q k hq hq'
          exact ⟨l, r ++ [p], by simp only; rw [e1]; simp, e2⟩
        · exact absurd (List.mem_singleton.1 hq') e
    · intro q hq hqp
      simp only [List.mem_append, List.mem_singleton, not_or] at hq hqp
      obtain ⟨z, z1, z2⟩ := h.stale q (hq.resolve_right hqp.2) hqp.1
      exact ⟨z, z1, z2.trans (List.sublist_append_left _ _)⟩
    · obtain ⟨spikes, still, hp⟩ := h.steps
      refine ⟨spikes, still, ?_⟩
      rcases hl : u.getLast? with _ | a
      · have hu : u = [] := List.getLast?_eq_none_iff.1 hl
        have hs : s.path = [] := by
          have := h.last; rw [hl] at this; exact List.getLast?_eq_none_iff.1 this
        subst hu
        rw [hs] at hp ⊢
        exact hp
      · rw [pathSteps_append hl, pathSteps_append (by rw [h.last, hl]), ← List.append_assoc]
        exact hp.append_right _
  · -- a point seen before
    have hpu : p ∈ u := (h.known p).1 ⟨k, hm⟩
    have hpp : p ∈ s.path := by
      by_contra hpp
      obtain ⟨q, q1, q2⟩ := h.stale p hpu hpp
      exact hn p q q1 (by simpa using q2.append (List.Sublist.refl [p]))
    obtain ⟨l, r, e1, e2⟩ := h.pos p k hm hpp
    have hlen : s.path.length = k + r.length := by rw [e1]; simp; omega
    have htake : s.path.take k = l ++ [p] := by
      rw [e1, ← e2]; exact List.take_left' (by simp)
    have hdrop : s.path.drop k = r := by
      rw [e1, ← e2]; exact List.drop_left' (by simp)
    dsimp only
    rw [if_neg (by omega)]
    have hnd := h.nodup
    rw [e1] at hnd
    have hnd1 : (l ++ [p]).Nodup := (List.nodup_append.1 hnd).1
    have hnd2 : r.Nodup := (List.nodup_append.1 hnd).2.1
    have hpr : p ∉ r := fun hp => (List.nodup_append.1 hnd).2.2 p (by simp) p hp rfl
    have hulast : u.getLast? = some ((p :: r).getLast (by simp)) := by
      rw [← h.last, e1]
      have : (l ++ [p] ++ r) = l ++ (p :: r) := by simp
      rw [this, List.getLast?_append_of_ne_nil _ (by simp), List.getLast?_eq_some_getLast (by simp)]
    -- the common part of the invariant
    have hsub : (l ++ [p]).Sublist (u ++ [p]) := by
      refine List.Sublist.trans ?_ (List.sublist_append_left u [p])
      refine List.Sublist.trans ?_ h.sub
      rw [e1]; exact List.sublist_append_left _ _
    have hhead : (l ++ [p]).head? = (u ++ [p]).head? := by
      have hu : u ≠ [] := List.ne_nil_of_mem hpu
      rw [List.head?_append_of_ne_nil _ hu, ← h.head, e1]
      exact (List.head?_append_of_ne_nil _ (by simp)).symm
    have hknown : ∀ q, (∃ k, s.map.lookup q = some k) ↔ q ∈ u ++ [p] := by
      intro q
      rw [h.known q, List.mem_append, List.mem_singleton]
      exact ⟨Or.inl, fun hq => hq.elim id fun e => e ▸ hpu⟩
    have hpos : ∀ q k', s.map.lookup q = some k' → q ∈ l ++ [p] → ∃ l' r', l ++ [p] = l' ++ [q] ++ r' ∧ l'.length + 1 = k' := by
      intro q k' hq hqp
      obtain ⟨l', r', f1, f2⟩ := h.pos q k' hq (by rw [e1]; exact List.mem_append_left _ hqp)
      obtain ⟨l2, r2, g1⟩ := List.append_of_mem hqp
      -- positions agree, the list has no duplicates
      have g2 : s.path = l2 ++ [q] ++ (r2 ++ r) := by rw [e1, g1]; simp
      have : l2.length = l'.length := by
        have hnd' := h.nodup
        have i1 : s.path[l2.length]? = some q := by rw [g2]; simp
        have i2 : s.path[l'.length]? = some q := by rw [f1]; simp
        have hl1 := (List.getElem?_eq_some_iff.1 i1).1
        exact (List.getElem?_inj hl1 hnd').1 (i1.trans i2.symm)
      exact ⟨l2, r2, by rw [g1]; simp, by omega⟩
    have hstale : ∀ q ∈ u ++ [p], q ∉ l ++ [p] → ∃ z, q ≠ z ∧ [z, q, z].Sublist (u ++ [p]) := by
      intro q hq hqp
      have hqu : q ∈ u := by
        rcases List.mem_append.1 hq with h' | h'
        · exact h'
        · rw [List.mem_singleton.1 h']; exact hpu
      by_cases hqr : q ∈ r
      · refine ⟨p, fun e => hpr (e ▸ hqr), ?_⟩
        have : [p, q].Sublist u := by
          refine List.Sublist.trans ?_ h.sub
          rw [e1]
          have := (List.sublist_append_right l [p]).append (List.singleton_sublist.2 hqr)
          simpa using this
        simpa using this.append (List.Sublist.refl [p])
      · obtain ⟨z, z1, z2⟩ := h.stale q hqu (by
          rw [e1, List.mem_append]
          exact fun h' => h'.elim hqp hqr)
        exact ⟨z, z1, z2.trans (List.sublist_append_left _ _)⟩
    obtain ⟨spikes, still, hp⟩ := h.steps
    have hsteps : pathSteps (u ++ [p]) = pathSteps u ++ [((p :: r).getLast (by simp), p)] := pathSteps_append hulast p
    have hpath : pathSteps s.path = pathSteps (l ++ [p]) ++ pathSteps (p :: r) := by rw [e1, pathSteps_concat]
    have hclose : pathSteps (p :: r) ++ [((p :: r).getLast (by simp), p)] = polyEdges (p :: r) := by
      rw [polyEdges_eq_pathSteps (p := p) rfl, pathSteps_append (a := (p :: r).getLast (by simp)) (List.getLast?_eq_some_getLast _)]
    have hall : (pathSteps (u ++ [p])).Perm ((s.result.flatMap polyEdges ++ backAndForth spikes ++
        still.map (fun p => (p, p)) ++ pathSteps (l ++ [p])) ++ polyEdges (p :: r)) := by
      rw [hsteps, ← hclose]
      refine (hp.append_right _).trans ?_
      rw [hpath]
      simp only [List.append_assoc]
      exact List.Perm.refl _
    have hperm4 : ∀ A B D P x : List (Pt × Pt), (A ++ B ++ D ++ P ++ x).Perm (A ++ B ++ D ++ x ++ P) := by
      intro A B D P x
      rw [List.append_assoc (A ++ B ++ D), List.append_assoc (A ++ B ++ D)]
      exact List.Perm.append_left _ List.perm_append_comm
    by_cases hshort : s.path.length - k < 2
    · rw [if_pos hshort]
      refine ⟨_, rfl, ?_⟩
      simp only [htake]
      refine ⟨hnd1, hsub, by simp, hhead, hknown, hpos, hstale, h.loops, ?_⟩
      rcases r with _ | ⟨x, r⟩
      · refine ⟨spikes, still ++ [p], hall.trans ?_⟩
        have : polyEdges [p] = [(p, p)] := rfl
        rw [this]
        refine (hperm4 _ _ _ _ _).trans ?_
        simp
      · have hr : r = [] := by
          apply List.eq_nil_of_length_eq_zero
          simp at hlen; omega
        subst hr
        refine ⟨spikes ++ [(p, x)], still, hall.trans ?_⟩
        have : polyEdges [p, x] = [(p, x), (x, p)] := rfl
        rw [this]
        refine (hperm4 _ _ _ _ _).trans ?_
        refine List.Perm.append_right _ ?_
        have e : backAndForth (spikes ++ [(p, x)]) = backAndForth spikes ++ [(p, x), (x, p)] := by
          unfold backAndForth; rw [List.flatMap_append]; rfl
        rw [e, List.append_assoc, List.append_assoc, List.append_assoc]
        refine List.Perm.append_left _ ?_
        rw [List.append_assoc]
        exact List.Perm.append_left _ List.perm_append_comm
    · rw [if_neg hshort]
      refine ⟨_, rfl, ?_⟩
      simp only [htake, hdrop]
      have hv : validateArea 0 (r ++ [p]) = true := rfl
      simp only [hv, if_true]
      refine ⟨hnd1, hsub, by simp, hhead, hknown, hpos, hstale, ?_, ?_⟩
      · intro c hc
        rcases List.mem_append.1 hc with hc | hc
        · exact h.loops c hc
        · rw [List.mem_singleton] at hc
          subst hc
          refine ⟨?_, by simp; omega⟩
          rw [List.nodup_append]
          refine ⟨hnd2, by simp, fun a ha b hb => ?_⟩
          rw [List.mem_singleton] at hb
          rw [hb]; exact fun e => hpr (e ▸ ha)
      · refine ⟨spikes, still, hall.trans ?_⟩
        refine (List.Perm.append_left _ (polyEdges_rotate p r).symm).trans ?_
        rw [List.flatMap_append, List.flatMap_singleton]
        simp only [List.append_assoc]
        refine List.Perm.append_left _ ?_
        refine List.Perm.trans ?_ (List.perm_append_comm (l₁ := backAndForth spikes ++ (still.map (fun p => (p, p)) ++ pathSteps (l ++ [p]))))
        simp

theorem loopFold_spec : ∀ (rest u : List Pt) (s : LoopState), LoopInv u s → NonInterleaved (u ++ rest) →
    ∃ s', rest.foldlM (loopStep 0) s = some s' ∧ LoopInv (u ++ rest) s' := by
  intro rest
  induction rest with
  | nil => intro u s h _; exact ⟨s, rfl, by simpa using h⟩
  | cons p rest ih =>
    intro u s h hn
    have e : u ++ p :: rest = (u ++ [p]) ++ rest := by simp
    obtain ⟨s', h1, h2⟩ := loopStep_spec h (p := p) (fun a b hab hs => hn a b hab (by
      rw [e]; exact hs.trans (List.sublist_append_left _ _)))
    rw [List.foldlM_cons, h1]
    rw [e] at hn ⊢
    exact ih (u ++ [p]) s' h2 hn

/-- C31: a closed walk in which no two points occur alternately is split into loops without repeated points,
each with at least three; their edges are the edges of the walk, apart from pairs of steps back and forth along
the same edge (and steps that stay at a point). -/
theorem C31_split_loops (w : List Pt) (hn : NonInterleaved w) :
    ∃ (loops : List (List Pt)) (spikes : List (Pt × Pt)) (still : List Pt), splitLoops 0 w = some loops ∧
      (∀ c ∈ loops, c.Nodup ∧ 3 ≤ c.length) ∧
      (polyEdges w).Perm (loops.flatMap polyEdges ++ (spikes.flatMap fun e => [(e.1, e.2), (e.2, e.1)]) ++
        still.map fun p => (p, p)) := by
  obtain ⟨s, h1, h2⟩ := loopFold_spec w [] ⟨[], [], []⟩
    ⟨List.nodup_nil, List.Sublist.refl _, rfl, rfl, by simp, by simp, by simp, by simp, ⟨[], [], List.Perm.refl _⟩⟩
    (by simpa using hn)
  rw [List.nil_append] at h2
  obtain ⟨spikes, still, hp⟩ := h2.steps
  unfold splitLoops
  rw [h1]
  -- closing the walk and the path
  have hclose : (polyEdges w).Perm (s.result.flatMap polyEdges ++ backAndForth spikes ++ still.map (fun p => (p, p)) ++
      polyEdges s.path) := by
    cases w with
    | nil =>
      have hs : s.path = [] := by
        have := h2.sub; exact List.sublist_nil.1 this
      rw [hs] at hp ⊢
      exact hp
    | cons a w =>
      have hh : s.path.head? = some a := h2.head
      rw [polyEdges_eq_pathSteps (path := a :: w) (p := a) rfl, polyEdges_eq_pathSteps hh]
      rw [pathSteps_append (List.getLast?_eq_some_getLast (by simp : a :: w ≠ [])),
        pathSteps_append (by rw [h2.last]; exact List.getLast?_eq_some_getLast (by simp)), ← List.append_assoc]
      exact hp.append_right _
  by_cases hl : 2 < s.path.length
  · refine ⟨s.result ++ [s.path], spikes, still, by simp [hl], ?_, ?_⟩
    · intro c hc
      rcases List.mem_append.1 hc with hc | hc
      · exact h2.loops c hc
      · rw [List.mem_singleton.1 hc]; exact ⟨h2.nodup, hl⟩
    · refine hclose.trans ?_
      rw [List.flatMap_append, List.flatMap_singleton]
      unfold backAndForth
      simp only [List.append_assoc]
      refine List.Perm.append_left _ ?_
      simp only [← List.append_assoc]
      refine List.Perm.trans List.perm_append_comm ?_
      simp
  · rcases hsp : s.path with _ | ⟨x, _ | ⟨y, r⟩⟩
    · refine ⟨s.result, spikes, still, by simp [hsp], h2.loops, ?_⟩
      rw [hsp] at hclose
      simpa [polyEdges, backAndForth] using hclose
    · refine ⟨s.result, spikes, still ++ [x], by simp [hsp], h2.loops, ?_⟩
      rw [hsp] at hclose
      simpa [polyEdges, backAndForth] using hclose
    · have hr : r = [] := by
        apply List.eq_nil_of_length_eq_zero
        rw [hsp] at hl; simp only [List.length_cons] at hl; omega
      subst hr
      refine ⟨s.result, spikes ++ [(x, y)], still, by simp [hsp], h2.loops, ?_⟩
      rw [hsp] at hclose
      refine hclose.trans ?_
      have e : polyEdges [x, y] = [(x, y), (y, x)] := rfl
      rw [e, List.flatMap_append]
      unfold backAndForth
      simp only [List.append_assoc]
      refine List.Perm.append_left _ (List.Perm.append_left _ ?_)
      exact List.perm_append_comm


/-- The loops of a walk wind around every point as often as the walk. -/
theorem C31_winding (w : List Pt) (hn : NonInterleaved w) (loops : List (List Pt)) (h : splitLoops 0 w = some loops)
    (q : QPt) : polysWind loops q = polyWind w q := by
  obtain ⟨loops', spikes, still, h1, -, h3⟩ := C31_split_loops w hn
  rw [h] at h1
  obtain rfl := Option.some.inj h1
  have := stepsWind_perm h3 q
  rw [stepsWind_append, stepsWind_append] at this
  have z1 : stepsWind (spikes.flatMap fun e => [(e.1, e.2), (e.2, e.1)]) q = 0 := by
    unfold stepsWind
    clear this h3
    induction spikes with
    | nil => rfl
    | cons e l ih => simp [edgeWind_swap e.1 e.2, ih]
  have z2 : stepsWind (still.map fun p => (p, p)) q = 0 := by
    unfold stepsWind
    clear this h3
    induction still with
    | nil => rfl
    | cons p l ih =>
      have : edgeWind p p q = 0 := by have := edgeWind_swap p p q; omega
      rw [List.map_cons, List.map_cons, List.sum_cons, ih, this]; rfl
  have z3 : ∀ L : List (List Pt), stepsWind (L.flatMap polyEdges) q = polysWind L q := by
    intro L
    induction L with
    | nil => rfl
    | cons c L ih => rw [List.flatMap_cons, stepsWind_append, ih]; rfl
  rw [z1, z2, z3] at this
  unfold polyWind
  unfold stepsWind at this
  omega

/-! ### C32 -/

/-- Two runs of `split_loops` on the same walk with different limits: same path and positions. -/
structure SameLoops (m : Nat) (s t : LoopState) : Prop where
  path : s.path = t.path
  map : s.map = t.map
  result : t.result = s.result.filter (validateArea m)

theorem loopStep_same {m : Nat} {s t s' : LoopState} (h : SameLoops m s t) {p : Pt} (hs : loopStep 0 s p = some s') :
    ∃ t', loopStep m t p = some t' ∧ SameLoops m s' t' := by
  unfold loopStep at hs ⊢
  rw [← h.path, ← h.map]
  rcases hm : s.map.lookup p with _ | k
  · rw [hm] at hs
    obtain rfl := Option.some.inj hs
    exact ⟨_, rfl, ⟨rfl, rfl, h.result⟩⟩
  · rw [hm] at hs
    dsimp only at hs ⊢
    split at hs
    · simp at hs
    · rename_i h1
      rw [if_neg h1]
      split at hs
      · rename_i h2
        rw [if_pos h2]
        obtain rfl := Option.some.inj hs
        exact ⟨_, rfl, ⟨rfl, rfl, h.result⟩⟩
      · rename_i h2
        rw [if_neg h2]
        obtain rfl := Option.some.inj hs
        refine ⟨_, rfl, ⟨rfl, rfl, ?_⟩⟩
        have hv : validateArea 0 (s.path.drop k ++ [p]) = true := rfl
        simp only [hv, if_true]
        rw [List.filter_append, ← h.result]
        by_cases hf : validateArea m (s.path.drop k ++ [p]) = true
        · simp [hf]
        · simp [hf]

theorem loopFold_same {m : Nat} : ∀ (w : List Pt) (s t s' : LoopState), SameLoops m s t → w.foldlM (loopStep 0) s = some s' →
    ∃ t', w.foldlM (loopStep m) t = some t' ∧ SameLoops m s' t' := by
  intro w
  induction w with
  | nil => intro s t s' h hs; obtain rfl := Option.some.inj hs; exact ⟨t, rfl, h⟩
  | cons p w ih =>
    intro s t s' h hs
    rw [List.foldlM_cons] at hs
    obtain ⟨s1, h1, h2⟩ := Option.bind_eq_some_iff.1 hs
    obtain ⟨t1, h3, h4⟩ := loopStep_same h h1
    obtain ⟨t', h5, h6⟩ := ih s1 t1 s' h4 h2
    exact ⟨t', by rw [List.foldlM_cons, h3]; exact h5, h6⟩

/-- C32 (partial): what the area limit does to the loops of one walk. Of the loops found without a limit, the
last one (if it is closed by the end of the walk) is always kept, and of the others exactly those *smaller* than
the limit are kept. Missing: the property itself, which is false (`C32_min_area_refuted`). -/
theorem C32_min_area_partial (w : List Pt) (m : Nat) (hm : 0 < m) (loops : List (List Pt))
    (h : splitLoops 0 w = some loops) :
    ∃ L T, loops = L ++ T ∧ T.length ≤ 1 ∧
      splitLoops m w = some ((L.filter fun c => decide ((doubleArea c).natAbs / 2 < m)) ++ T) := by
  unfold splitLoops at h ⊢
  obtain ⟨s, h1, h2⟩ := Option.map_eq_some_iff.1 h
  obtain ⟨t, h3, h4⟩ := loopFold_same w _ ⟨[], [], []⟩ s ⟨rfl, rfl, rfl⟩ h1
  rw [h3]
  have hv : validateArea m = fun c => decide ((doubleArea c).natAbs / 2 < m) := by
    funext c
    unfold validateArea
    rw [if_neg (by omega)]
  rw [← hv]
  by_cases hl : 2 < s.path.length
  · rw [if_pos hl] at h2
    refine ⟨s.result, [s.path], h2.symm, by simp, ?_⟩
    simp only [Option.map_some, ← h4.path, hl, if_true, h4.result]
  · rw [if_neg hl] at h2
    refine ⟨s.result, [], by rw [← h2]; simp, by simp, ?_⟩
    simp only [Option.map_some, ← h4.path, hl, if_false, h4.result, List.append_nil]

/-! ### witnesses -/

/-- A rectangle with two square holes, and a line joining the holes. -/
def twoHoles : List (List Pt) :=
  [[⟨0, 0⟩, ⟨35, 0⟩, ⟨35, 20⟩, ⟨0, 20⟩], [⟨5, 5⟩, ⟨5, 15⟩, ⟨15, 15⟩, ⟨15, 5⟩], [⟨20, 5⟩, ⟨20, 15⟩, ⟨30, 15⟩, ⟨30, 5⟩]]
def joiningLine : List (List Pt) := [[⟨15, 10⟩, ⟨20, 10⟩]]

/-- `is_clockwise_ordered` for the examples. -/
def exOrder (c : List Pt) : Bool := decide (doubleArea c < 0)

/-- The slice of the example with a given area limit. -/
def exSlice (minArea : Nat) : Option (List (List (List Pt))) :=
  (stringGraph .nonZero .list ⟨0, 1⟩ (bruteTree CountStr) listScanOracle 5 insertionEndSort
    (stringSegments twoHoles joiningLine [])).bind (sliceShapes exExternals exOrder false minArea)

/-- The hypotheses of C30 are met, and the walks of the example: around the rectangle, and one through both
holes and twice along the line. -/
example : (nodedEdges .list ⟨0, 1⟩ (bruteTree CountStr) 5 (stringSegments twoHoles joiningLine [])).isSome ∧
    ((stringGraph .nonZero .list ⟨0, 1⟩ (bruteTree CountStr) listScanOracle 5 insertionEndSort
      (stringSegments twoHoles joiningLine [])).bind sliceWalks) =
      some [(false, [⟨0, 0⟩, ⟨0, 20⟩, ⟨35, 20⟩, ⟨35, 0⟩]),
        (true, [⟨5, 5⟩, ⟨5, 15⟩, ⟨15, 15⟩, ⟨15, 10⟩, ⟨20, 10⟩, ⟨20, 15⟩, ⟨30, 15⟩, ⟨30, 5⟩, ⟨20, 5⟩, ⟨20, 10⟩, ⟨15, 10⟩, ⟨15, 5⟩])] ∧
    (bruteTree CountStr).Ok ∧ (listScanOracle (C := CountStr)).Ok ∧ EndSort insertionEndSort :=
  ⟨by decide +kernel, by decide +kernel, bruteTree_ok, listScanOracle_ok, insertionEndSort_ok⟩

/-- Decision procedure for small walks (examples only). -/
theorem nonInterleaved_of (w : List Pt) (h : ∀ p ∈ w, ∀ q ∈ w, p = q ∨ ¬ [q, p, q, p].Sublist w) : NonInterleaved w := by
  intro p q hpq hs
  have hp : p ∈ w := hs.subset (by simp)
  have hq : q ∈ w := hs.subset (by simp)
  exact (h p hp q hq).elim hpq fun h => h hs

/-- The hypothesis of C31 is met by the second walk. -/
example : NonInterleaved [⟨5, 5⟩, ⟨5, 15⟩, ⟨15, 15⟩, ⟨15, 10⟩, ⟨20, 10⟩, ⟨20, 15⟩, ⟨30, 15⟩, ⟨30, 5⟩, ⟨20, 5⟩, ⟨20, 10⟩,
    ⟨15, 10⟩, ⟨15, 5⟩] := nonInterleaved_of _ (by decide +kernel)

/-- Its loops: the line joining the holes is dropped. -/
example : splitLoops 0 [⟨5, 5⟩, ⟨5, 15⟩, ⟨15, 15⟩, ⟨15, 10⟩, ⟨20, 10⟩, ⟨20, 15⟩, ⟨30, 15⟩, ⟨30, 5⟩, ⟨20, 5⟩, ⟨20, 10⟩,
    ⟨15, 10⟩, ⟨15, 5⟩] =
    some [[⟨20, 15⟩, ⟨30, 15⟩, ⟨30, 5⟩, ⟨20, 5⟩, ⟨20, 10⟩], [⟨5, 5⟩, ⟨5, 15⟩, ⟨15, 15⟩, ⟨15, 10⟩, ⟨15, 5⟩]] := by
  decide +kernel

/-- C32 is refuted: with minimum area 10, one of two equal holes of area 100 is missing from the result; with
minimum area 10000, all contours (areas 700, 100, 100) are returned. -/
theorem C32_min_area_refuted :
    exSlice 0 = some [[[⟨35, 0⟩, ⟨35, 20⟩, ⟨0, 20⟩, ⟨0, 0⟩],
      [⟨20, 15⟩, ⟨30, 15⟩, ⟨30, 5⟩, ⟨20, 5⟩, ⟨20, 10⟩], [⟨5, 5⟩, ⟨5, 15⟩, ⟨15, 15⟩, ⟨15, 10⟩, ⟨15, 5⟩]]] ∧
    exSlice 10 = some [[[⟨35, 0⟩, ⟨35, 20⟩, ⟨0, 20⟩, ⟨0, 0⟩], [⟨5, 5⟩, ⟨5, 15⟩, ⟨15, 15⟩, ⟨15, 10⟩, ⟨15, 5⟩]]] ∧
    exSlice 10000 = exSlice 0 ∧
    (doubleArea [⟨35, 0⟩, ⟨35, 20⟩, ⟨0, 20⟩, ⟨0, 0⟩]).natAbs / 2 = 700 ∧
    (doubleArea [⟨20, 15⟩, ⟨30, 15⟩, ⟨30, 5⟩, ⟨20, 5⟩, ⟨20, 10⟩]).natAbs / 2 = 100 := by
  decide +kernel

/-- Without the hypothesis of C31 the loops can be wrong: for the alternating walk `q p x q p` the second `p` is
looked up at a position that no longer belongs to it, and splitting fails. -/
example : splitLoops 0 [⟨0, 0⟩, ⟨1, 0⟩, ⟨1, 1⟩, ⟨0, 0⟩, ⟨1, 0⟩] = none := by decide +kernel

end IOverlay
