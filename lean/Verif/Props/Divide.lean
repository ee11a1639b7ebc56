/-
Property C33: `decompose_contours`.
-/
import Verif.DivideLemmas
import Verif.Props.Loops

namespace IOverlay

/-! ### when the answer is `None` -/

/-- C33 (exact condition for `None`): `decompose_contours` answers `None` iff the contour has fewer than three
points or no point other than the largest one is repeated. -/
theorem C33_none_iff_partial (c : List Pt) :
    decompose c = some none ↔ c.length < 3 ∨ ∀ p, 2 ≤ c.count p → IsLargest c p := by
  unfold decompose
  by_cases hl : c.length < 3
  · simp [hl]
  rw [if_neg hl]
  dsimp only
  have key : (anchorsOf c).head? = none ↔ ∀ p, 2 ≤ c.count p → IsLargest c p := by
    rw [anchorsOf_spec, List.head?_eq_none_iff, List.filter_eq_nil_iff]
    constructor
    · intro h p hp
      have hm : p ∈ c := List.count_pos_iff.1 (by omega)
      rw [← idPts_pts c] at hm
      obtain ⟨a, ha, rfl⟩ := List.mem_map.1 hm
      have := h a ha
      rw [decide_eq_true_eq, IsAnchor, not_and, Decidable.not_not] at this
      exact this hp
    · intro h a _
      rw [decide_eq_true_eq, IsAnchor, not_and, Decidable.not_not]
      exact h a.pt
  rcases ha : (anchorsOf c).head? with _ | a0
  · rw [ha] at key
    simp only [true_iff] at key
    simp only [true_iff]
    exact Or.inr key
  · rw [ha] at key
    dsimp only
    constructor
    · intro h
      rw [Option.map_eq_some_iff] at h
      obtain ⟨top, -, h2⟩ := h
      simp at h2
    · intro h
      exact absurd (key.2 (h.resolve_left hl)) (by simp)

/-! ### the loops -/

theorem slice_succ {c u : List Pt} {p : Pt} {rest : List Pt} (h : c = u ++ p :: rest) {i : Nat} (hi : i ≤ u.length) :
    slice c i (u.length + 1) = slice c i u.length ++ [p] := by
  unfold slice
  have e1 : c.take (u.length + 1) = u ++ [p] := by
    rw [h, show u ++ p :: rest = (u ++ [p]) ++ rest by simp]
    exact List.take_left' (by simp)
  have e2 : c.take u.length = u := by rw [h]; exact List.take_left' rfl
  rw [e1, e2, List.drop_append_of_le_length hi]

theorem slice_self {c : List Pt} (i : Nat) : slice c i i = [] := by
  unfold slice
  rw [List.drop_eq_nil_iff, List.length_take]; omega

/-- The walk described by the stack (its top first) when the vertices before index `i` are done. -/
def openPath (c : List Pt) (i : Nat) : List SubPath → List Pt
  | [] => []
  | top :: below => (below.reverse.flatMap SubPath.path) ++ (top.path ++ slice c top.last i)

/-- What holds after the vertices `u` which follow `pre`, the part before the first anchor; `rest` are the
remaining vertices and `m` the largest point. -/
structure DivInv (c pre u rest : List Pt) (m b : Pt) (st : DivState) : Prop where
  split : c = pre ++ u ++ rest
  bound : ∀ s ∈ st.stack, s.last ≤ pre.length + u.length
  heads : ∀ s ∈ st.stack, s.path.head? = some s.node
  bottom : (st.stack.map SubPath.node).getLast? = some b
  nodes : (st.stack.map SubPath.node).Nodup
  opened : ∀ p ∈ (st.stack.map SubPath.node).dropLast, p ∈ rest
  anchored : ∀ p ∈ (st.stack.map SubPath.node), IsAnchor c p
  sub : (openPath c (pre.length + u.length) st.stack).Sublist u
  head : (openPath c (pre.length + u.length) st.stack).head? = some b
  hu : u.head? = some b
  last : (openPath c (pre.length + u.length) st.stack).getLast? = u.getLast?
  nodup : ∀ p, p ≠ m → (openPath c (pre.length + u.length) st.stack).count p ≤ 1
  done : ∀ p ∈ openPath c (pre.length + u.length) st.stack, IsAnchor c p →
    p ∈ st.stack.map SubPath.node ∨ p ∉ rest
  stale : ∀ p ∈ u, p ∉ openPath c (pre.length + u.length) st.stack → ∃ q, p ≠ q ∧ [q, p, q].Sublist u
  loops : ∀ l ∈ st.contours, ∀ p, p ≠ m → l.count p ≤ 1
  steps : (pathSteps u).Perm (st.contours.flatMap polyEdges ++ pathSteps (openPath c (pre.length + u.length) st.stack))

theorem pathSteps_snoc_perm {u V : List Pt} {L : List (Pt × Pt)} (hlast : V.getLast? = u.getLast?)
    (h : (pathSteps u).Perm (L ++ pathSteps V)) (p : Pt) : (pathSteps (u ++ [p])).Perm (L ++ pathSteps (V ++ [p])) := by
  rcases hl : u.getLast? with _ | a
  · have hu : u = [] := List.getLast?_eq_none_iff.1 hl
    have hs : V = [] := by rw [hl] at hlast; exact List.getLast?_eq_none_iff.1 hlast
    subst hu hs
    exact h
  · rw [pathSteps_append hl, pathSteps_append (by rw [hlast, hl]), ← List.append_assoc]
    exact h.append_right _

/-- The hypotheses about the contour under which the decomposition is right: no two points occur alternately and,
apart from the largest point and the first repeated one, no point occurs more than twice. -/
structure Splittable (c : List Pt) (b : Pt) : Prop where
  alternate : NonInterleaved c
  twice : ∀ p, p ≠ b → ¬ IsLargest c p → c.count p ≤ 2

theorem divInv_skip {c pre u rest : List Pt} {m b p : Pt} {st : DivState} (hm : IsLargest c m)
    (h : DivInv c pre u (p :: rest) m b st) (hp : ¬ IsAnchor c p) : DivInv c pre (u ++ [p]) rest m b st := by
  have hne : st.stack ≠ [] := by
    intro e
    have := h.bottom
    rw [e] at this; simp at this
  obtain ⟨top, below, hst⟩ := List.exists_cons_of_ne_nil hne
  have hun : u ≠ [] := by
    intro e
    have := h.hu
    rw [e] at this; simp at this
  have hV : openPath c (pre.length + (u ++ [p]).length) st.stack =
      openPath c (pre.length + u.length) st.stack ++ [p] := by
    rw [hst]
    simp only [openPath]
    have e := slice_succ (c := c) (u := pre ++ u) (p := p) (rest := rest) h.split (i := top.last)
      (by rw [List.length_append]; exact h.bound top (by simp [hst]))
    rw [List.length_append] at e
    have e' : pre.length + (u ++ [p]).length = pre.length + u.length + 1 := by simp; omega
    rw [e', e]; simp
  have hnew : p ≠ m → p ∉ u := by
    intro hpm hpu
    have hc : 2 ≤ c.count p := by
      have : 1 ≤ u.count p := List.count_pos_iff.2 hpu
      rw [h.split, List.count_append, List.count_append, List.count_cons_self]; omega
    have hl : IsLargest c p := by
      by_contra hl; exact hp ⟨hc, hl⟩
    rcases Pt.lt_tri p m with h1 | h1 | h1
    · exact hl.2 m hm.1 h1
    · exact hpm h1
    · exact hm.2 p hl.1 h1
  refine ⟨by rw [h.split]; simp, ?_, h.heads, h.bottom, h.nodes, ?_, h.anchored, ?_, ?_, ?_, ?_, ?_, ?_, ?_, h.loops, ?_⟩
  · intro s hs
    have := h.bound s hs
    simp; omega
  · intro q hq
    have h1 := h.opened q hq
    have hqa : IsAnchor c q := h.anchored q (List.dropLast_subset _ hq)
    rcases List.mem_cons.1 h1 with e | h1
    · exact absurd (e ▸ hqa) hp
    · exact h1
  · rw [hV]; exact h.sub.append (List.Sublist.refl _)
  · rw [hV, List.head?_append, h.head]; rfl
  · rw [List.head?_append, h.hu]; rfl
  · rw [hV]; simp
  · intro q hq
    rw [hV, List.count_append]
    by_cases e : q = p
    · subst e
      have : (openPath c (pre.length + u.length) st.stack).count q = 0 :=
        List.count_eq_zero.2 fun h' => hnew hq (h.sub.subset h')
      rw [this]; simp
    · have := h.nodup q hq
      rw [show [p].count q = 0 by rw [List.count_eq_zero]; simpa using e]; omega
  · intro q hq hqa
    rw [hV] at hq
    rcases List.mem_append.1 hq with hq | hq
    · exact (h.done q hq hqa).imp_right fun h' => fun h'' => h' (List.mem_cons_of_mem _ h'')
    · rw [List.mem_singleton.1 hq] at hqa; exact absurd hqa hp
  · intro q hq hqV
    rw [hV] at hqV
    simp only [List.mem_append, List.mem_singleton, not_or] at hq hqV
    obtain ⟨z, z1, z2⟩ := h.stale q (hq.resolve_right hqV.2) hqV.1
    exact ⟨z, z1, z2.trans (List.sublist_append_left _ _)⟩
  · rw [hV]; exact pathSteps_snoc_perm h.last h.steps p

theorem divInv_step {c pre u rest : List Pt} {m b p : Pt} {st : DivState} (hm : IsLargest c m) (hc : Splittable c b)
    (hpre : ∀ q ∈ pre, ¬ IsAnchor c q) (h : DivInv c pre u (p :: rest) m b st) (hp : IsAnchor c p) :
    DivInv c pre (u ++ [p]) rest m b (decStep c st ⟨pre.length + u.length, p⟩) := by
  have hne : st.stack ≠ [] := by
    intro e
    have := h.bottom
    rw [e] at this; simp at this
  obtain ⟨top, below, hst⟩ := List.exists_cons_of_ne_nil hne
  have hun : u ≠ [] := by
    intro e
    have := h.hu
    rw [e] at this; simp at this
  have hpm : p ≠ m := fun e => hp.2 (e ▸ hm)
  have hlen : pre.length + (u ++ [p]).length = pre.length + u.length + 1 := by simp; omega
  have hni : NonInterleaved (u ++ p :: rest) := by
    intro a z haz hs
    refine hc.alternate a z haz (hs.trans ?_)
    rw [h.split, List.append_assoc]
    exact List.sublist_append_right _ _
  set V := openPath c (pre.length + u.length) st.stack with hVdef
  set B := below.reverse.flatMap SubPath.path with hB
  set T := top.path ++ slice c top.last (pre.length + u.length) with hT
  have hVBT : V = B ++ T := by rw [hVdef, hst]; rfl
  obtain ⟨t, hTt⟩ : ∃ t, T = top.node :: t := by
    have hh := h.heads top (by simp [hst])
    rcases hp' : top.path with _ | ⟨x, l⟩
    · rw [hp'] at hh; simp at hh
    · rw [hp'] at hh
      simp only [List.head?_cons, Option.some.injEq] at hh
      subst hh
      exact ⟨l ++ slice c top.last (pre.length + u.length), by rw [hT, hp']; rfl⟩
  have hslice1 : slice c (pre.length + u.length) (pre.length + u.length + 1) = [p] := by
    have e := slice_succ (c := c) (u := pre ++ u) (p := p) (rest := rest) h.split (i := (pre ++ u).length) le_rfl
    rw [List.length_append] at e
    rw [e, slice_self]; rfl
  have hnodes := h.nodes
  rw [hst, List.map_cons, List.nodup_cons] at hnodes
  have hb := h.bottom
  rw [hst, List.map_cons] at hb
  have hopen := h.opened
  rw [hst, List.map_cons] at hopen
  by_cases htop : top.node = p
  · -- closing the top of the stack
    have hst' : decStep c st ⟨pre.length + u.length, p⟩ =
        ⟨st.contours ++ [T], belowClosed ⟨pre.length + u.length, p⟩ below⟩ := by
      unfold decStep
      rw [hst]
      dsimp only
      rw [if_pos htop]
      rfl
    rw [hst']
    set stack' : List SubPath := belowClosed ⟨pre.length + u.length, p⟩ below with hs'
    have hV' : openPath c (pre.length + (u ++ [p]).length) stack' = B ++ [p] := by
      rw [hlen, hs', hB]
      cases below with
      | nil => simp [openPath, belowClosed, SubPath.start, slice_self]
      | cons prev r => simp [openPath, belowClosed, SubPath.shift, hslice1]
    have hnodes' : stack'.map SubPath.node = if below = [] then [p] else below.map SubPath.node := by
      rw [hs']
      cases below with
      | nil => rfl
      | cons prev r => rfl
    have hmemV : ∀ q ∈ B ++ [p], q ∈ V := by
      intro q hq
      rw [hVBT, hTt, htop]
      rcases List.mem_append.1 hq with hq | hq
      · exact List.mem_append_left _ hq
      · rw [List.mem_singleton.1 hq]; simp
    have hsubV : (B ++ [p]).Sublist V := by
      rw [hVBT, hTt, htop]
      exact (List.Sublist.refl B).append (List.singleton_sublist.2 (by simp))
    have hul : u.getLast? = some ((p :: t).getLast (by simp)) := by
      rw [← h.last, ← hVdef]
      have : V = B ++ (p :: t) := by rw [hVBT, hTt, htop]
      rw [this, List.getLast?_append_of_ne_nil _ (by simp), List.getLast?_eq_some_getLast (by simp)]
    refine ⟨by rw [h.split]; simp, ?_, ?_, ?_, ?_, ?_, ?_, ?_, ?_, ?_, ?_, ?_, ?_, ?_, ?_, ?_⟩
    · -- bound
      intro s hs
      rw [hlen]
      rw [hs'] at hs
      cases below with
      | nil =>
        simp only [belowClosed, List.mem_singleton] at hs
        subst hs
        simp [SubPath.start]
      | cons prev r =>
        rcases List.mem_cons.1 hs with e | hs
        · subst e; simp [SubPath.shift]
        · have := h.bound s (by rw [hst]; simp [hs]); omega
    · -- heads
      intro s hs
      rw [hs'] at hs
      cases below with
      | nil =>
        simp only [belowClosed, List.mem_singleton] at hs
        subst hs; rfl
      | cons prev r =>
        rcases List.mem_cons.1 hs with e | hs
        · subst e; exact h.heads prev (by rw [hst]; simp)
        · exact h.heads s (by rw [hst]; simp [hs])
    · rw [hnodes']
      split
      · rename_i e
        rw [e, List.map_nil] at hb
        rw [← htop]; exact hb
      · rename_i e
        rwa [List.getLast?_cons_of_ne_nil (by simpa using e)] at hb
    · rw [hnodes']
      split
      · simp
      · exact hnodes.2
    · intro q hq
      rw [hnodes'] at hq
      split at hq
      · simp at hq
      · rename_i e
        have h1 : q ∈ (top.node :: below.map SubPath.node).dropLast := by
          rw [List.dropLast_cons_of_ne_nil (by simpa using e)]
          exact List.mem_cons_of_mem _ hq
        have h2 : q ≠ p := by
          intro e'
          rw [htop] at hnodes
          exact hnodes.1 (e' ▸ List.dropLast_subset _ hq)
        exact (List.mem_cons.1 (hopen q h1)).resolve_left h2
    · intro q hq
      rw [hnodes'] at hq
      split at hq
      · rw [List.mem_singleton.1 hq]; exact hp
      · exact h.anchored q (by rw [hst]; simp only [List.map_cons]; exact List.mem_cons_of_mem _ hq)
    · rw [hV']
      exact (hsubV.trans h.sub).trans (List.sublist_append_left _ _)
    · rw [hV']
      have := h.head
      rw [← hVdef, hVBT, hTt, htop] at this
      rw [List.head?_append] at this ⊢
      exact this
    · rw [List.head?_append, h.hu]; rfl
    · rw [hV']; simp
    · intro q hq
      rw [hV']
      exact (hsubV.count_le q).trans (h.nodup q hq)
    · -- done
      intro q hq hqa
      rw [hV'] at hq
      by_cases e : q = p
      · subst e
        rw [hnodes']
        split
        · exact Or.inl (by simp)
        · rename_i e
          right
          have hqb : q ≠ b := by
            intro e'
            rw [List.getLast?_cons_of_ne_nil (by simpa using e)] at hb
            exact hnodes.1 (by rw [htop, e']; exact List.mem_of_getLast? hb)
          have hle := hc.twice q hqb hp.2
          have : 1 ≤ u.count q := List.count_pos_iff.2 (h.sub.subset (hmemV q hq))
          intro hr
          have h3 : 1 ≤ rest.count q := List.count_pos_iff.2 hr
          rw [h.split, List.count_append, List.count_append, List.count_cons_self] at hle
          omega
      · rcases h.done q (hmemV q hq) hqa with h1 | h1
        · left
          rw [hst, List.map_cons, htop] at h1
          have h2 := (List.mem_cons.1 h1).resolve_left e
          rw [hnodes']
          split
          · rename_i e'
            rw [e'] at h2; simp at h2
          · exact h2
        · exact Or.inr fun h' => h1 (List.mem_cons_of_mem _ h')
    · -- stale
      intro q hq hqV
      rw [hV'] at hqV
      have hqu : q ∈ u := by
        rcases List.mem_append.1 hq with h' | h'
        · exact h'
        · exact absurd (by simp [List.mem_singleton.1 h']) hqV
      by_cases hqv : q ∈ V
      · have hqp : q ≠ p := fun e => hqV (by simp [e])
        have hqt : q ∈ t := by
          rw [hVBT, hTt, htop] at hqv
          rcases List.mem_append.1 hqv with h' | h'
          · exact absurd (List.mem_append_left _ h') hqV
          · exact (List.mem_cons.1 h').resolve_left hqp
        refine ⟨p, hqp, ?_⟩
        have : [p, q].Sublist u := by
          refine List.Sublist.trans ?_ h.sub
          rw [← hVdef, hVBT, hTt, htop]
          refine List.Sublist.trans ?_ (List.sublist_append_right _ _)
          exact List.Sublist.cons_cons _ (List.singleton_sublist.2 hqt)
        simpa using this.append (List.Sublist.refl [p])
      · obtain ⟨z, z1, z2⟩ := h.stale q hqu hqv
        exact ⟨z, z1, z2.trans (List.sublist_append_left _ _)⟩
    · intro l hl q hq
      rcases List.mem_append.1 hl with hl | hl
      · exact h.loops l hl q hq
      · rw [List.mem_singleton.1 hl]
        have := h.nodup q hq
        rw [← hVdef, hVBT, List.count_append] at this
        omega
    · rw [hV', pathSteps_append hul, List.flatMap_append, List.flatMap_singleton]
      have hclose : polyEdges T = pathSteps (p :: t) ++ [((p :: t).getLast (by simp), p)] := by
        rw [hTt, htop, polyEdges_eq_pathSteps (p := p) rfl,
          pathSteps_append (a := (p :: t).getLast (by simp)) (List.getLast?_eq_some_getLast _)]
      have hsp : pathSteps V = pathSteps (B ++ [p]) ++ pathSteps (p :: t) := by
        have e : V = B ++ [p] ++ t := by rw [hVBT, hTt, htop]; simp
        rw [e, pathSteps_concat]
      refine (h.steps.append_right _).trans ?_
      rw [← hVdef, hsp, hclose]
      simp only [List.append_assoc]
      refine List.Perm.append_left _ ?_
      rw [← List.append_assoc (pathSteps (p :: t))]
      exact List.perm_append_comm
  · -- a new sub path
    have hpV : p ∉ V := by
      intro hpV
      rcases h.done p hpV hp with h1 | h1
      · rw [hst, List.map_cons] at h1
        have h2 := (List.mem_cons.1 h1).resolve_left (fun e => htop e.symm)
        have hbn : below ≠ [] := by rintro rfl; simp at h2
        have h3 := hopen top.node (by
          rw [List.dropLast_cons_of_ne_nil (by simpa using hbn)]; simp)
        have h4 : top.node ∈ rest := (List.mem_cons.1 h3).resolve_left htop
        obtain ⟨s, hs, hsn⟩ := List.mem_map.1 h2
        have hpB : p ∈ B := by
          rw [hB, List.mem_flatMap]
          exact ⟨s, List.mem_reverse.2 hs, by
            rw [← hsn]; exact List.mem_of_head? (h.heads s (by rw [hst]; simp [hs]))⟩
        have hs2 : [p, top.node].Sublist u := by
          refine List.Sublist.trans ?_ h.sub
          rw [← hVdef, hVBT, hTt]
          exact (List.singleton_sublist.2 hpB).append (List.singleton_sublist.2 (by simp))
        have hs3 : [p, top.node].Sublist (p :: rest) := List.Sublist.cons_cons _ (List.singleton_sublist.2 h4)
        exact hni top.node p htop (hs2.append hs3)
      · exact h1 (by simp)
    have hpu : p ∉ u := by
      intro hpu
      obtain ⟨q, q1, q2⟩ := h.stale p hpu hpV
      refine hni p q q1 ?_
      have := q2.append (List.singleton_sublist.2 (by simp : p ∈ p :: rest))
      simpa using this
    have hppre : p ∉ (st.stack.map SubPath.node) := by
      intro h1
      obtain ⟨s, hs, hsn⟩ := List.mem_map.1 h1
      apply hpV
      have hps : p ∈ s.path := by rw [← hsn]; exact List.mem_of_head? (h.heads s hs)
      rw [hVBT]
      rw [hst] at hs
      rcases List.mem_cons.1 hs with e | hs
      · rw [hT, ← e]; simp [hps]
      · apply List.mem_append_left
        rw [hB, List.mem_flatMap]
        exact ⟨s, List.mem_reverse.2 hs, hps⟩
    have hst' : decStep c st ⟨pre.length + u.length, p⟩ =
        ⟨st.contours, SubPath.start ⟨pre.length + u.length, p⟩ ::
          top.join ⟨pre.length + u.length, p⟩ c :: below⟩ := by
      unfold decStep
      rw [hst]
      dsimp only
      rw [if_neg htop]
    rw [hst']
    have hV' : openPath c (pre.length + (u ++ [p]).length) (SubPath.start ⟨pre.length + u.length, p⟩ ::
          top.join ⟨pre.length + u.length, p⟩ c :: below) = V ++ [p] := by
      rw [hlen, hVBT, hB, hT]
      simp [openPath, SubPath.start, SubPath.join, slice_self]
    have hnodes' : ((SubPath.start ⟨pre.length + u.length, p⟩ ::
          top.join ⟨pre.length + u.length, p⟩ c :: below).map SubPath.node) = p :: st.stack.map SubPath.node := by
      rw [hst]; rfl
    have hprest : p ∈ rest := by
      have h1 := hp.1
      rw [h.split, List.count_append, List.count_append, List.count_cons_self] at h1
      have z1 : pre.count p = 0 := List.count_eq_zero.2 fun h' => hpre p h' hp
      have z2 : u.count p = 0 := List.count_eq_zero.2 hpu
      exact List.count_pos_iff.1 (by omega)
    refine ⟨by rw [h.split]; simp, ?_, ?_, ?_, ?_, ?_, ?_, ?_, ?_, ?_, ?_, ?_, ?_, ?_, h.loops, ?_⟩
    · intro s hs
      rw [hlen]
      rcases List.mem_cons.1 hs with e | hs
      · subst e; simp [SubPath.start]
      · rcases List.mem_cons.1 hs with e | hs
        · subst e; simp [SubPath.join]
        · have := h.bound s (by rw [hst]; simp [hs]); omega
    · intro s hs
      rcases List.mem_cons.1 hs with e | hs
      · subst e; rfl
      · rcases List.mem_cons.1 hs with e | hs
        · subst e
          have := h.heads top (by rw [hst]; simp)
          simp only [SubPath.join]
          rw [List.head?_append, this]; rfl
        · exact h.heads s (by rw [hst]; simp [hs])
    · rw [hnodes', List.getLast?_cons_of_ne_nil (by simpa using hne)]; exact h.bottom
    · rw [hnodes', List.nodup_cons]; exact ⟨hppre, h.nodes⟩
    · intro q hq
      rw [hnodes', List.dropLast_cons_of_ne_nil (by simpa using hne)] at hq
      rcases List.mem_cons.1 hq with e | hq
      · rw [e]; exact hprest
      · have h2 : q ≠ p := fun e => hppre (e ▸ List.dropLast_subset _ hq)
        exact (List.mem_cons.1 (h.opened q hq)).resolve_left h2
    · intro q hq
      rw [hnodes'] at hq
      rcases List.mem_cons.1 hq with e | hq
      · rw [e]; exact hp
      · exact h.anchored q hq
    · rw [hV']; exact h.sub.append (List.Sublist.refl _)
    · rw [hV', List.head?_append, h.head]; rfl
    · rw [List.head?_append, h.hu]; rfl
    · rw [hV']; simp
    · intro q hq
      rw [hV', List.count_append]
      by_cases e : q = p
      · subst e
        rw [List.count_eq_zero.2 hpV]; simp
      · have := h.nodup q hq
        rw [show [p].count q = 0 by rw [List.count_eq_zero]; simpa using e]
        rw [hVdef]; omega
    · intro q hq hqa
      rw [hV'] at hq
      rw [hnodes']
      rcases List.mem_append.1 hq with hq | hq
      · rcases h.done q hq hqa with h1 | h1
        · exact Or.inl (List.mem_cons_of_mem _ h1)
        · exact Or.inr fun h' => h1 (List.mem_cons_of_mem _ h')
      · rw [List.mem_singleton.1 hq]; exact Or.inl (by simp)
    · intro q hq hqV
      rw [hV'] at hqV
      simp only [List.mem_append, List.mem_singleton, not_or] at hq hqV
      obtain ⟨z, z1, z2⟩ := h.stale q (hq.resolve_right hqV.2) hqV.1
      exact ⟨z, z1, z2.trans (List.sublist_append_left _ _)⟩
    · rw [hV']; exact pathSteps_snoc_perm h.last h.steps p

theorem idPts_cons_shift (c pre : List Pt) (p : Pt) (rest : List Pt) (h : c = pre ++ p :: rest) :
    (idPts c).drop pre.length = ⟨pre.length, p⟩ :: (idPts c).drop (pre.length + 1) := by
  have hlt : pre.length < (idPts c).length := by rw [idPts_length, h]; simp
  rw [List.drop_eq_getElem_cons hlt]
  congr 1
  have : (idPts c)[pre.length]? = some ⟨pre.length, p⟩ := by
    unfold idPts
    rw [List.getElem?_map, List.getElem?_zipIdx]
    simp [h]
  rw [List.getElem?_eq_getElem hlt] at this
  exact Option.some.inj this

/-- The whole loop over the anchors. -/
theorem decFold {c : List Pt} {m b : Pt} (hm : IsLargest c m) (hc : Splittable c b) {pre : List Pt}
    (hpre : ∀ q ∈ pre, ¬ IsAnchor c q) : ∀ (rest u : List Pt) (st : DivState), DivInv c pre u rest m b st →
    DivInv c pre (u ++ rest) [] m b
      ((((idPts c).drop (pre.length + u.length)).filter fun a => decide (IsAnchor c a.pt)).foldl (decStep c) st) := by
  intro rest
  induction rest with
  | nil =>
    intro u st h
    have : (idPts c).drop (pre.length + u.length) = [] := by
      rw [List.drop_eq_nil_iff, idPts_length, h.split]; simp
    rw [this]
    simpa using h
  | cons p rest ih =>
    intro u st h
    have hs := idPts_cons_shift c (pre ++ u) p rest h.split
    rw [List.length_append] at hs
    rw [hs, show u ++ p :: rest = (u ++ [p]) ++ rest by simp]
    have hl : pre.length + u.length + 1 = pre.length + (u ++ [p]).length := by simp; omega
    rw [hl]
    by_cases hp : IsAnchor c p
    · rw [List.filter_cons_of_pos (by simpa using hp), List.foldl_cons]
      exact ih (u ++ [p]) _ (divInv_step hm hc hpre h hp)
    · rw [List.filter_cons_of_neg (by simpa using hp)]
      exact ih (u ++ [p]) _ (divInv_skip hm h hp)

/-- The part before the first repeated point. -/
theorem filter_head_split : ∀ (c : List Pt) (P : Pt → Prop) [DecidablePred P], (∃ p ∈ c, P p) →
    ∃ pre b rest, c = pre ++ b :: rest ∧ P b ∧ ∀ q ∈ pre, ¬ P q := by
  intro c P _
  induction c with
  | nil => rintro ⟨p, hp, -⟩; simp at hp
  | cons a c ih =>
    rintro ⟨p, hp, hP⟩
    by_cases ha : P a
    · exact ⟨[], a, c, rfl, ha, by simp⟩
    · obtain ⟨pre, b, rest, h1, h2, h3⟩ := ih ⟨p, (List.mem_cons.1 hp).resolve_left (fun e => ha (e ▸ hP)), hP⟩
      refine ⟨a :: pre, b, rest, by rw [h1]; rfl, h2, ?_⟩
      intro q hq
      rcases List.mem_cons.1 hq with e | hq
      · rw [e]; exact ha
      · exact h3 q hq

theorem exists_largest : ∀ (c : List Pt), c ≠ [] → ∃ m, IsLargest c m := by
  intro c
  induction c with
  | nil => intro h; exact absurd rfl h
  | cons a c ih =>
    intro _
    by_cases hc : c = []
    · subst hc; exact ⟨a, by simp, by simp [Pt.lt_irrefl]⟩
    · obtain ⟨m, h1, h2⟩ := ih hc
      by_cases ham : m < a
      · refine ⟨a, by simp, ?_⟩
        intro q hq
        rcases List.mem_cons.1 hq with e | hq
        · rw [e]; exact Pt.lt_irrefl _
        · intro h'; exact h2 q hq (Pt.lt_trans ham h')
      · refine ⟨m, by simp [h1], ?_⟩
        intro q hq
        rcases List.mem_cons.1 hq with e | hq
        · rw [e]; exact ham
        · exact h2 q hq

theorem polyEdges_shift (l r : List Pt) : (polyEdges (l ++ r)).Perm (polyEdges (r ++ l)) := by
  induction l generalizing r with
  | nil => simp
  | cons a l ih =>
    have h1 := (polyEdges_rotate a (l ++ r)).symm
    rw [List.cons_append]
    refine h1.trans ?_
    rw [List.append_assoc]
    refine (ih (r ++ [a])).trans ?_
    rw [List.append_assoc]; rfl

/-- Two walks with the same ends, followed by the same points and closed. -/
theorem polyEdges_close {u V pre : List Pt} {b : Pt} {L : List (Pt × Pt)} (hu : u.head? = some b)
    (hV : V.head? = some b) (hl : V.getLast? = u.getLast?) (h : (pathSteps u).Perm (L ++ pathSteps V)) :
    (polyEdges (u ++ pre)).Perm (L ++ polyEdges (V ++ pre)) := by
  have key : ∀ (pre u V : List Pt), V.getLast? = u.getLast? → (pathSteps u).Perm (L ++ pathSteps V) →
      (pathSteps (u ++ pre)).Perm (L ++ pathSteps (V ++ pre)) := by
    intro pre
    induction pre with
    | nil => intro u V _ h; simpa using h
    | cons p pre ih =>
      intro u V hl h
      have := ih (u ++ [p]) (V ++ [p]) (by simp) (pathSteps_snoc_perm hl h p)
      simpa using this
  have e1 : (u ++ pre).head? = some b := by rw [List.head?_append, hu]; rfl
  have e2 : (V ++ pre).head? = some b := by rw [List.head?_append, hV]; rfl
  rw [polyEdges_eq_pathSteps e1, polyEdges_eq_pathSteps e2, List.append_assoc, List.append_assoc]
  exact key (pre ++ [b]) u V hl h

/-- The first repeated point (other than the largest). -/
def FirstRepeated (c : List Pt) (b : Pt) : Prop :=
  ∃ pre rest, c = pre ++ b :: rest ∧ IsAnchor c b ∧ ∀ q ∈ pre, ¬ IsAnchor c q

/-- C33 (partial): if no two points of the contour occur alternately and no point occurs more than twice, apart
from the largest point and the first repeated one, then `decompose_contours` returns contours whose edges are
exactly the edges of the given contour, in which no point is repeated except possibly the largest one. Missing: the
largest point stays repeated, and the claim is false if another point occurs three times
(`C33_decompose_refuted`). -/
theorem C33_decompose_partial (c : List Pt) (b : Pt) (hb : FirstRepeated c b) (hlen : 3 ≤ c.length)
    (hc : Splittable c b) : ∃ loops, decompose c = some (some loops) ∧
      (loops.flatMap polyEdges).Perm (polyEdges c) ∧
      ∀ l ∈ loops, ∀ p, ¬ IsLargest c p → l.count p ≤ 1 := by
  obtain ⟨pre, rest, h1, h2, h3⟩ := hb
  obtain ⟨m, hm⟩ := exists_largest c (by rw [h1]; simp)
  have hmu : ∀ p, ¬ IsLargest c p → p ≠ m := fun p hp e => hp (e ▸ hm)
  have hmu' : ∀ p, p ≠ m → ¬ IsLargest c p := by
    intro p hp hl
    rcases Pt.lt_tri p m with h | h | h
    · exact hl.2 m hm.1 h
    · exact hp h
    · exact hm.2 p hl.1 h
  have hanch : anchorsOf c = ⟨pre.length, b⟩ ::
      ((idPts c).drop (pre.length + 1)).filter fun a => decide (IsAnchor c a.pt) := by
    have z : ((idPts c).take pre.length).filter (fun a => decide (IsAnchor c a.pt)) = [] := by
      rw [List.filter_eq_nil_iff]
      intro a ha
      have : a.pt ∈ pre := by
        have h := List.mem_map_of_mem (f := IdPt.pt) ha
        rw [List.map_take, idPts_pts, h1, List.take_left' rfl] at h
        exact h
      simpa using h3 a.pt this
    have e : (idPts c).filter (fun a => decide (IsAnchor c a.pt)) =
        (((idPts c).take pre.length) ++ ((idPts c).drop pre.length)).filter (fun a => decide (IsAnchor c a.pt)) := by
      rw [List.take_append_drop]
    rw [anchorsOf_spec, e, List.filter_append, z,
      idPts_cons_shift c pre b rest h1, List.filter_cons_of_pos (by simpa using h2)]
    rfl
  have hstart : DivInv c pre [b] rest m b ⟨[], [SubPath.start ⟨pre.length, b⟩]⟩ := by
    have hV : openPath c (pre.length + [b].length) [SubPath.start ⟨pre.length, b⟩] = [b] := by
      simp [openPath, SubPath.start, slice_self]
    refine ⟨by rw [h1]; simp, ?_, ?_, rfl, by simp, by simp, ?_, ?_, ?_, rfl, ?_, ?_, ?_, ?_, by simp, ?_⟩
    · intro s hs; rw [List.mem_singleton.1 hs]; simp [SubPath.start]
    · intro s hs; rw [List.mem_singleton.1 hs]; rfl
    · intro p hp
      simp only [List.map_cons, List.map_nil, List.mem_singleton] at hp
      rw [hp]; exact h2
    all_goals rw [hV]
    · rfl
    · intro p _; exact (List.count_le_length).trans (by simp)
    · intro p hp _
      rw [List.mem_singleton.1 hp]
      left; simp [SubPath.start]
    · intro p hp hn; exact absurd hp hn
    · exact List.Perm.refl _
  have hend := decFold hm hc h3 rest [b] _ hstart
  have hfold : (anchorsOf c).foldl (decStep c) ⟨[], []⟩ =
      (((idPts c).drop (pre.length + [b].length)).filter fun a => decide (IsAnchor c a.pt)).foldl (decStep c)
        ⟨[], [SubPath.start ⟨pre.length, b⟩]⟩ := by
    rw [hanch, List.foldl_cons]; rfl
  rw [← hfold] at hend
  set st := (anchorsOf c).foldl (decStep c) ⟨[], []⟩ with hst
  obtain ⟨top, hstack⟩ : ∃ top, st.stack = [top] := by
    have ho := hend.opened
    have hbt := hend.bottom
    rcases hs : st.stack with _ | ⟨top, _ | ⟨s, r⟩⟩
    · rw [hs] at hbt; simp at hbt
    · exact ⟨top, rfl⟩
    · rw [hs] at ho
      exact absurd (ho top.node (by simp)) (by simp)
  have hu : ([b] ++ rest) = b :: rest := rfl
  have hclen : pre.length + ([b] ++ rest).length = c.length := by rw [h1]; simp
  have hV : openPath c (pre.length + ([b] ++ rest).length) st.stack = top.path ++ c.drop top.last := by
    rw [hstack, hclen]
    simp [openPath, slice]
  have htake : c.take pre.length = pre := by rw [h1]; exact List.take_left' rfl
  have hhead : (anchorsOf c).head? = some ⟨pre.length, b⟩ := by rw [hanch]; rfl
  refine ⟨st.contours ++ [top.path ++ c.drop top.last ++ pre], ?_, ?_, ?_⟩
  · unfold decompose
    rw [if_neg (by omega)]
    dsimp only
    rw [hhead]
    dsimp only
    rw [← hst, hstack, htake]
    rfl
  · rw [List.flatMap_append, List.flatMap_singleton]
    have := polyEdges_close (pre := pre) hend.hu hend.head hend.last hend.steps
    rw [hV] at this
    refine this.symm.trans ?_
    rw [h1]
    exact polyEdges_shift _ _
  · intro l hl p hp
    rcases List.mem_append.1 hl with hl | hl
    · exact hend.loops l hl p (hmu p hp)
    · rw [List.mem_singleton.1 hl, List.count_append, ← hV]
      have hn := hend.nodup p (hmu p hp)
      by_cases hpp : p ∈ pre
      · have hna := h3 p hpp
        have hcnt : c.count p ≤ 1 := by
          by_contra h; exact hna ⟨by omega, hp⟩
        have hsub := hend.sub.count_le p
        have hcnt' : c.count p = pre.count p + ([b] ++ rest).count p := by
          rw [hu, ← List.count_append, ← h1]
        omega
      · rw [List.count_eq_zero.2 hpp]; omega

/-- With every vertex used: the returned contours together have the vertices of the given contour. -/
theorem C33_vertices_partial (c : List Pt) (b : Pt) (hb : FirstRepeated c b) (hlen : 3 ≤ c.length)
    (hc : Splittable c b) (loops : List (List Pt)) (h : decompose c = some (some loops)) :
    loops.flatten.Perm c := by
  obtain ⟨loops', h1, h2, -⟩ := C33_decompose_partial c b hb hlen hc
  rw [h] at h1
  obtain rfl := Option.some.inj (Option.some.inj h1)
  have hfst : ∀ l : List Pt, (polyEdges l).map Prod.fst = l := by
    intro l
    cases l with
    | nil => rfl
    | cons a l =>
      unfold polyEdges
      exact List.map_fst_zip (by simp)
  have := h2.map Prod.fst
  rw [hfst, List.map_flatMap] at this
  simpa [hfst, List.flatMap_id'] using this

/-! ### witnesses -/

/-- Two triangles sharing a corner, drawn in one stroke, with a small loop nested in the second one. -/
def strokeContour : List Pt :=
  [⟨-1, -3⟩, ⟨0, 0⟩, ⟨4, 2⟩, ⟨5, 3⟩, ⟨6, 2⟩, ⟨4, 2⟩, ⟨4, 0⟩, ⟨0, 0⟩, ⟨-4, 2⟩, ⟨-4, 0⟩, ⟨0, 0⟩, ⟨1, -3⟩]

/-- The hypotheses of `C33_decompose_partial` hold for `strokeContour` (its first repeated point occurs three
times). -/
example : FirstRepeated strokeContour ⟨0, 0⟩ ∧ Splittable strokeContour ⟨0, 0⟩ := by
  refine ⟨⟨[⟨-1, -3⟩], strokeContour.drop 2, rfl, by decide +kernel, by decide +kernel⟩, ?_, ?_⟩
  · intro p q hpq hs
    have hp : p ∈ strokeContour := hs.subset (by simp)
    have hq : q ∈ strokeContour := hs.subset (by simp)
    have key : ∀ p ∈ strokeContour, ∀ q ∈ strokeContour, p ≠ q → ¬ [q, p, q, p].Sublist strokeContour := by
      decide +kernel
    exact key p hp q hq hpq hs
  · intro p h1 h2
    by_cases hp : p ∈ strokeContour
    · have key : ∀ p ∈ strokeContour, p ≠ ⟨0, 0⟩ → strokeContour.count p ≤ 2 := by decide +kernel
      exact key p hp h1
    · rw [List.count_eq_zero.2 hp]; omega

example : decompose strokeContour = some (some [[⟨4, 2⟩, ⟨5, 3⟩, ⟨6, 2⟩], [⟨0, 0⟩, ⟨4, 2⟩, ⟨4, 0⟩],
    [⟨0, 0⟩, ⟨-4, 2⟩, ⟨-4, 0⟩], [⟨0, 0⟩, ⟨1, -3⟩, ⟨-1, -3⟩]]) := by decide +kernel

/-- A contour in which only the largest point is repeated. -/
def largestTwice : List Pt := [⟨0, 0⟩, ⟨2, 0⟩, ⟨9, 9⟩, ⟨3, 5⟩, ⟨1, 3⟩, ⟨9, 9⟩]

/-- A contour in which a point is visited three times inside the loop of another point. -/
def tripleInside : List Pt :=
  [⟨0, 0⟩, ⟨5, 5⟩, ⟨6, 7⟩, ⟨4, 7⟩, ⟨5, 5⟩, ⟨3, 6⟩, ⟨3, 4⟩, ⟨5, 5⟩, ⟨4, 2⟩, ⟨3, 1⟩, ⟨0, 0⟩, ⟨-2, 1⟩, ⟨-2, -1⟩]

/-- C33 is false of the code: a contour with a repeated vertex for which the answer is `None`, and a contour
(without alternating points) some of whose vertices are in none of the returned contours. -/
theorem C33_decompose_refuted :
    (2 ≤ largestTwice.count ⟨9, 9⟩ ∧ 3 ≤ largestTwice.length ∧ decompose largestTwice = some none) ∧
    (NonInterleaved tripleInside ∧ ∃ loops, decompose tripleInside = some (some loops) ∧
      ⟨3, 6⟩ ∈ tripleInside ∧ ∀ l ∈ loops, ⟨3, 6⟩ ∉ l) := by
  refine ⟨by decide +kernel, ?_, [[⟨5, 5⟩, ⟨6, 7⟩, ⟨4, 7⟩], [⟨0, 0⟩, ⟨-2, 1⟩, ⟨-2, -1⟩]], by decide +kernel, by decide +kernel,
    by decide +kernel⟩
  intro p q hpq hs
  have hp : p ∈ tripleInside := hs.subset (by simp)
  have hq : q ∈ tripleInside := hs.subset (by simp)
  have key : ∀ p ∈ tripleInside, ∀ q ∈ tripleInside, p ≠ q → ¬ [q, p, q, p].Sublist tripleInside := by
    decide +kernel
  exact key p hp q hq hpq hs

end IOverlay
