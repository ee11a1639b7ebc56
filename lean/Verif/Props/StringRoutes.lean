/-
Property C29, rounding included: the directed pieces the clipping works on form, for every line given by
the user, a directed route from its start to its end.
-/
import Verif.Props.Strings
import Verif.Props.Loops

namespace IOverlay
open WindingCount

/-- A polyline from `u` to `v` all of whose steps satisfy `D`. -/
structure Route (D : Pt → Pt → Prop) (u v : Pt) (path : List Pt) : Prop where
  first : path.head? = some u
  last : path.getLast? = some v
  steps : ∀ e ∈ path.zip path.tail, D e.1 e.2

/-- Every pair related by `L` is joined by a route in `D`, and every step of `D` is part of such a route. -/
structure Routed (L D : Pt → Pt → Prop) : Prop where
  cover : ∀ u v, L u v → ∃ path, Route D u v path
  part : ∀ p q, D p q → ∃ u v path, L u v ∧ Route D u v path ∧ (p, q) ∈ path.zip path.tail

theorem Route.join {D : Pt → Pt → Prop} {u v w : Pt} {l m : List Pt} (h : Route D u v l) (h' : Route D v w m) :
    Route D u w (l ++ m.tail) ∧ ∀ e, e ∈ (l ++ m.tail).zip (l ++ m.tail).tail ↔
      e ∈ l.zip l.tail ∨ e ∈ m.zip m.tail := by
  obtain ⟨m0, hm⟩ : ∃ m0, m = v :: m0 := by
    rcases m with _ | ⟨x, m0⟩
    · have := h'.first; simp at this
    · have := h'.first; simp at this; exact ⟨m0, by rw [this]⟩
  obtain ⟨l0, hl⟩ : ∃ l0, l = l0 ++ [v] := by
    have := h.last
    rw [List.getLast?_eq_some_iff] at this
    exact this
  have key : pathSteps (l ++ m.tail) = pathSteps l ++ pathSteps m := by
    rw [hm, hl]; exact pathSteps_concat m0
  have mem : ∀ e, e ∈ (l ++ m.tail).zip (l ++ m.tail).tail ↔ e ∈ l.zip l.tail ∨ e ∈ m.zip m.tail := by
    intro e
    have : e ∈ pathSteps (l ++ m.tail) ↔ e ∈ pathSteps l ∨ e ∈ pathSteps m := by rw [key, List.mem_append]
    exact this
  refine ⟨⟨?_, ?_, ?_⟩, mem⟩
  · have := h.first
    rw [hl] at this ⊢
    cases l0 <;> simpa using this
  · have h1 := h'.last
    have h2 := h.last
    rw [hm] at h1 ⊢
    cases m0 with
    | nil => simp at h1; subst h1; simpa using h2
    | cons x m0 => rw [List.tail_cons, List.getLast?_append]; simpa using h1
  · intro e he
    rcases (mem e).1 he with he | he
    · exact h.steps e he
    · exact h'.steps e he

/-- Refining a route step by step. -/
theorem Route.refine {D E : Pt → Pt → Prop} (hc : ∀ u v, D u v → ∃ path, Route E u v path) :
    ∀ (path : List Pt) {u v : Pt}, Route D u v path → ∃ path', Route E u v path' ∧
      ∀ p q, (p, q) ∈ path.zip path.tail → ∀ m, Route E p q m →
        ∃ path'', Route E u v path'' ∧ ∀ e ∈ m.zip m.tail, e ∈ path''.zip path''.tail := by
  intro path
  induction path with
  | nil => intro u v h; have := h.first; simp at this
  | cons a rest ih =>
    intro u v h
    have hu : a = u := by simpa using h.first
    subst hu
    rcases rest with _ | ⟨b, rest⟩
    · have hv : a = v := by simpa using h.last
      subst hv
      exact ⟨[a], ⟨rfl, rfl, by simp⟩, by simp⟩
    · have h2 : Route D b v (b :: rest) :=
        ⟨rfl, by simpa using h.last, fun e he => h.steps e (by simp at he ⊢; exact Or.inr he)⟩
      obtain ⟨t, t1, t2⟩ := ih h2
      obtain ⟨m0, hm0⟩ := hc a b (h.steps (a, b) (by simp))
      refine ⟨_, (hm0.join t1).1, ?_⟩
      intro p q hpq m hm
      have hpq' : (p, q) = (a, b) ∨ (p, q) ∈ (b :: rest).zip (b :: rest).tail := by simpa using hpq
      rcases hpq' with e | hpq'
      · cases e
        exact ⟨_, (hm.join t1).1, fun e he => ((hm.join t1).2 e).2 (Or.inl he)⟩
      · obtain ⟨p2, h3, h4⟩ := t2 p q hpq' m hm
        exact ⟨_, (hm0.join h3).1, fun e he => ((hm0.join h3).2 e).2 (Or.inr (h4 e he))⟩

theorem Routed.trans {L D E : Pt → Pt → Prop} (h : Routed L D) (h' : Routed D E) : Routed L E where
  cover := by
    intro u v huv
    obtain ⟨path, hp⟩ := h.cover u v huv
    obtain ⟨path', h1, -⟩ := Route.refine h'.cover path hp
    exact ⟨path', h1⟩
  part := by
    intro p q hpq
    obtain ⟨u, v, m, h1, h2, h3⟩ := h'.part p q hpq
    obtain ⟨a, b, path, h4, h5, h6⟩ := h.part u v h1
    obtain ⟨-, -, h7⟩ := Route.refine h'.cover path h5
    obtain ⟨path', h8, h9⟩ := h7 u v h6 m h2
    exact ⟨a, b, path', h4, h8, h9 _ h3⟩

theorem Routed.of_iff {L D : Pt → Pt → Prop} (h : ∀ u v, D u v ↔ L u v) : Routed L D where
  cover := fun u v huv => ⟨[u, v], rfl, rfl, by simpa using (h u v).2 huv⟩
  part := fun p q hpq => ⟨p, q, [p, q], (h p q).1 hpq, ⟨rfl, rfl, by simpa using hpq⟩, by simp⟩

/-- The directed pieces of line recorded in a list of edges. -/
def Directed (segs : List (Seg CountStr)) (u v : Pt) : Prop := ∃ s ∈ segs, (u, v) ∈ s.pieces

theorem createValidate_pieces (p m u v : Pt) (c : CountStr) :
    (u, v) ∈ (createValidate p m c).pieces ↔
      (c.back = true ∧ u = p ∧ v = m) ∨ (c.fwd = true ∧ u = m ∧ v = p) := by
  unfold createValidate
  split
  · rw [mem_pieces]
  · rw [mem_pieces]
    simp only [WindingCount.invert]
    tauto

theorem chainSegs_pieces (c : CountStr) (b : Pt) (l : List Pt) : ∀ (p u v : Pt),
    Directed (chainSegs c b p l) u v ↔
      (c.back = true ∧ (u, v) ∈ pathSteps (p :: l ++ [b])) ∨ (c.fwd = true ∧ (v, u) ∈ pathSteps (p :: l ++ [b])) := by
  induction l with
  | nil =>
    intro p u v
    simp only [Directed, chainSegs, List.mem_singleton, exists_eq_left, createValidate_pieces, pathSteps,
      List.nil_append, List.cons_append, List.tail_cons, List.zip_cons_cons, List.zip_nil_right, Prod.mk.injEq]
    tauto
  | cons m rest ih =>
    intro p u v
    have h1 : Directed (chainSegs c b p (m :: rest)) u v ↔
        (u, v) ∈ (createValidate p m c).pieces ∨ Directed (chainSegs c b m rest) u v := by
      unfold Directed
      rw [chainSegs]
      simp only [List.mem_cons, exists_eq_or_imp]
    have h2 : ∀ e, e ∈ pathSteps (p :: (m :: rest) ++ [b]) ↔ e = (p, m) ∨ e ∈ pathSteps (m :: rest ++ [b]) := by
      intro e
      have : pathSteps (p :: (m :: rest) ++ [b]) = (p, m) :: pathSteps (m :: rest ++ [b]) := rfl
      rw [this, List.mem_cons]
    rw [h1, ih, createValidate_pieces, h2, h2]
    simp only [Prod.mk.injEq]
    tauto

theorem splitSeg_routed (marks : List Mark) (i : Nat) (s : Seg CountStr) :
    Routed (fun u v => (u, v) ∈ s.pieces) (Directed (splitSeg marks i s)) := by
  unfold splitSeg
  split
  · exact Routed.of_iff fun u v => by simp [Directed]
  · rename_i m rest _
    generalize subSort (rest.length + 1) s.a.y s.b (m :: rest) = l
    have hb : s.c.back = true → Route (Directed (chainSegs s.c s.b s.a l)) s.a s.b (s.a :: l ++ [s.b]) := by
      intro h
      refine ⟨rfl, List.getLast?_concat, ?_⟩
      rintro ⟨x, y⟩ he
      exact (chainSegs_pieces _ _ _ _ _ _).2 (Or.inl ⟨h, he⟩)
    have hrev : ∀ e : Pt × Pt, e ∈ pathSteps (s.a :: l ++ [s.b]).reverse ↔ e.swap ∈ pathSteps (s.a :: l ++ [s.b]) := by
      intro e
      rw [(pathSteps_reverse _).mem_iff, List.mem_map]
      constructor
      · rintro ⟨f, hf, rfl⟩; simpa using hf
      · intro h; exact ⟨_, h, by simp⟩
    have hf : s.c.fwd = true → Route (Directed (chainSegs s.c s.b s.a l)) s.b s.a (s.a :: l ++ [s.b]).reverse := by
      intro h
      refine ⟨by simp, by rw [List.getLast?_reverse]; rfl, ?_⟩
      rintro ⟨x, y⟩ he
      exact (chainSegs_pieces _ _ _ _ _ _).2 (Or.inr ⟨h, (hrev _).1 he⟩)
    constructor
    · intro u v huv
      rcases (mem_pieces s u v).1 huv with ⟨h, rfl, rfl⟩ | ⟨h, rfl, rfl⟩
      · exact ⟨_, hb h⟩
      · exact ⟨_, hf h⟩
    · intro p q hpq
      rcases (chainSegs_pieces _ _ _ _ _ _).1 hpq with ⟨h, h1⟩ | ⟨h, h1⟩
      · exact ⟨s.a, s.b, _, (mem_pieces _ _ _).2 (Or.inl ⟨h, rfl, rfl⟩), hb h, h1⟩
      · exact ⟨s.b, s.a, _, (mem_pieces _ _ _).2 (Or.inr ⟨h, rfl, rfl⟩), hf h, (hrev _).2 h1⟩

theorem merge_directed {l : List (Seg CountStr)} (hne : ∀ s ∈ l, isNotEmpty s.c = true) (u v : Pt) :
    Directed (mergeIfNeeded (sortSegs l)) u v ↔ Directed l u v := by
  have hne' : ∀ s ∈ sortSegs l, WindingCount.isNotEmpty s.c = true := fun s hs =>
    hne s ((sortSegs_perm l).mem_iff.1 hs)
  have hm := fun s => mergeIfNeeded_mem (sortSegs l) (sortSegs_sorted l) hne' s
  constructor
  · rintro ⟨s, hs, hp⟩
    have := ((hm s).1 hs).1
    rw [keySum_perm (sortSegs_perm l)] at this
    rcases (mem_pieces s u v).1 hp with ⟨h, rfl, rfl⟩ | ⟨h, rfl, rfl⟩
    · rw [this, keySum_flag isFlag_back] at h
      obtain ⟨t, ht, e1, e2, h3⟩ := h
      exact ⟨t, ht, (mem_pieces _ _ _).2 (Or.inl ⟨h3, e1.symm, e2.symm⟩)⟩
    · rw [this, keySum_flag isFlag_fwd] at h
      obtain ⟨t, ht, e1, e2, h3⟩ := h
      exact ⟨t, ht, (mem_pieces _ _ _).2 (Or.inr ⟨h3, e2.symm, e1.symm⟩)⟩
  · rintro ⟨s, hs, hp⟩
    refine ⟨⟨s.a, s.b, keySum l s.a s.b⟩, (hm _).2 ⟨by rw [keySum_perm (sortSegs_perm l)], ?_⟩, ?_⟩
    · rcases (mem_pieces s u v).1 hp with ⟨h, -, -⟩ | ⟨h, -, -⟩
      · exact isFlag_back.some _ ((keySum_flag isFlag_back _ _ _).2 ⟨s, hs, rfl, rfl, h⟩)
      · exact isFlag_fwd.some _ ((keySum_flag isFlag_fwd _ _ _).2 ⟨s, hs, rfl, rfl, h⟩)
    · rw [mem_pieces]
      rcases (mem_pieces s u v).1 hp with ⟨h, rfl, rfl⟩ | ⟨h, rfl, rfl⟩
      · exact Or.inl ⟨(keySum_flag isFlag_back _ _ _).2 ⟨s, hs, rfl, rfl, h⟩, rfl, rfl⟩
      · exact Or.inr ⟨(keySum_flag isFlag_fwd _ _ _).2 ⟨s, hs, rfl, rfl, h⟩, rfl, rfl⟩

theorem applyMarks_routed (marks : List Mark) {segs : List (Seg CountStr)}
    (hne : ∀ s ∈ segs, isNotEmpty s.c = true) :
    Routed (Directed segs) (Directed (applyMarks marks segs)) := by
  have hne' : ∀ s ∈ splitAll marks 0 segs, isNotEmpty s.c = true := by
    intro e he
    obtain ⟨i, s, h1, h2⟩ := (mem_splitAll _ _ _ _).1 he
    have hs := hne s (List.mem_of_getElem? h1)
    unfold splitSeg at h2
    split at h2
    · simp at h2; subst h2; exact hs
    · exact chainSegs_nonempty CountStr.invert_nonempty _ hs _ _ _ e h2
  have hd : ∀ u v, Directed (applyMarks marks segs) u v ↔
      ∃ i s, segs[i]? = some s ∧ Directed (splitSeg marks i s) u v := by
    intro u v
    unfold applyMarks
    rw [merge_directed hne']
    constructor
    · rintro ⟨e, he, h⟩
      obtain ⟨i, s, h1, h2⟩ := (mem_splitAll _ _ _ _).1 he
      rw [Nat.zero_add] at h2
      exact ⟨i, s, h1, e, h2, h⟩
    · rintro ⟨i, s, h1, e, h2, h⟩
      exact ⟨e, (mem_splitAll _ _ _ _).2 ⟨i, s, h1, by rw [Nat.zero_add]; exact h2⟩, h⟩
  have up : ∀ {i s u v path}, segs[i]? = some s → Route (Directed (splitSeg marks i s)) u v path →
      Route (Directed (applyMarks marks segs)) u v path := by
    intro i s u v path hi hp
    exact ⟨hp.first, hp.last, fun e he => (hd _ _).2 ⟨i, s, hi, hp.steps e he⟩⟩
  constructor
  · rintro u v ⟨s, hs, h⟩
    obtain ⟨i, hi⟩ := List.getElem?_of_mem hs
    obtain ⟨path, hp⟩ := (splitSeg_routed marks i s).cover u v h
    exact ⟨path, up hi hp⟩
  · intro p q hpq
    obtain ⟨i, s, hi, h⟩ := (hd p q).1 hpq
    obtain ⟨u, v, path, h1, h2, h3⟩ := (splitSeg_routed marks i s).part p q h
    exact ⟨u, v, path, ⟨s, List.mem_of_getElem? hi, h1⟩, up hi h2, h3⟩

/-- C29 (routes through the split edges): whatever the strategy, the snap radius and the rounding, the
directed pieces left by the splitting phase are exactly those lying on directed routes that lead from
the start to the end of the lines given by the user. -/
theorem C29_routes (st : Strategy) (sr : SnapRadius) (tree : TreeOracle CountStr) (fuel : Nat)
    (shape paths contours : List (List Pt)) (r : List (Seg CountStr))
    (hr : nodedEdges st sr tree fuel (stringSegments shape paths contours) = some r) :
    Routed (fun u v => (u, v) ∈ userLines paths contours ∧ u ≠ v) (Directed r) := by
  have h0 : Routed (fun u v => (u, v) ∈ userLines paths contours ∧ u ≠ v)
      (Directed (stringSegments shape paths contours)) :=
    Routed.of_iff fun u v => stringSegments_pieces shape paths contours (u, v)
  unfold nodedEdges at hr
  split at hr
  · rename_i he
    rw [← Option.some.inj hr, ← List.isEmpty_iff.1 he]
    exact h0
  · have ne0 := stringSegments_nonempty shape paths contours
    exact (splitSegments_keeps
      (fun l => Routed (fun u v => (u, v) ∈ userLines paths contours ∧ u ≠ v) (Directed l) ∧
        ∀ s ∈ l, isNotEmpty s.c = true)
      (fun marks segs h => ⟨h.1.trans (applyMarks_routed marks h.2),
        applyMarks_nonempty CountStr.invert_nonempty _ _ h.2⟩) st sr tree fuel _ r
      ⟨h0.trans (Routed.of_iff fun u v => merge_directed ne0 u v), start_nonempty ne0⟩ hr).1

/-- C29 for a whole run, rounding included: there are a set `T` of directed pieces and a subset `K` of it
such that the steps of the returned polylines are exactly the pieces in `K`, none twice; the pieces of
`T` are exactly those on directed routes from the start to the end of the lines given by the user; and a
piece of `T` is in `K` iff the clip rule selects it (judged by the winding number of the split shape
close to its inner points). -/
theorem C29_clip_routes (clip : ClipRule) (rule : FillRule) (st : Strategy) (sr : SnapRadius)
    (tree : TreeOracle CountStr) (ht : tree.Ok) (sc : ScanOracle CountStr) (hsc : sc.Ok) (fuel : Nat)
    (sortE : List End → List End) (hE : EndSort sortE) (shape paths contours : List (List Pt))
    (hf : FragOk st sr (stringSegments shape paths contours))
    (r : List (Seg CountStr))
    (hr : nodedEdges st sr tree fuel (stringSegments shape paths contours) = some r)
    (hn : st = .list ∨ 2 < r.length) :
    ∃ (out : List (List Pt)) (T K : Pt → Pt → Prop),
      clipLines clip rule st sr tree sc fuel sortE (stringSegments shape paths contours) = some out ∧
      (out.flatMap fun p => p.zip p.tail).Nodup ∧
      (∀ u v, (u, v) ∈ (out.flatMap fun p => p.zip p.tail) ↔ K u v) ∧
      (∀ u v, K u v → T u v) ∧
      Routed (fun u v => (u, v) ∈ userLines paths contours ∧ u ≠ v) T ∧
      (∀ u v, T u v → u ≠ v ∧ ∀ m : QPt, inSeg m u v → ∃ ε : ℚ, 0 < ε ∧ ∀ δ, 0 < δ → δ < ε →
        (K u v ↔ (CountsInside clip (rule.inside (segsWind CountStr.subj r (leftOf u v m δ)))
              (rule.inside (segsWind CountStr.subj r (rightOf u v m δ))) ↔ clip.invert = false))) := by
  obtain ⟨out, K, h1, -, h3, h4⟩ := C29_clip clip rule st sr tree ht sc hsc fuel sortE hE shape paths contours hf r hr hn
  obtain ⟨hp, -⟩ := string_planar ht hf hr hn
  have uniq : ∀ s ∈ r, ∀ t ∈ r, ∀ u v, (u, v) ∈ s.pieces → (u, v) ∈ t.pieces → s.a = t.a ∧ s.b = t.b := by
    intro s hs t ht u v h1 h2
    have l1 := hp.lt s hs
    have l2 := hp.lt t ht
    rcases (mem_pieces s u v).1 h1 with ⟨-, e1, e2⟩ | ⟨-, e1, e2⟩ <;>
    rcases (mem_pieces t u v).1 h2 with ⟨-, f1, f2⟩ | ⟨-, f1, f2⟩
    · exact ⟨e1 ▸ f1, e2 ▸ f2⟩
    · exact absurd l2 (by rw [← f1, ← f2, e1, e2]; exact Pt.lt_asymm l1)
    · exact absurd l2 (by rw [← f1, ← f2, e1, e2]; exact Pt.lt_asymm l1)
    · exact ⟨e2 ▸ f2, e1 ▸ f1⟩
  have notlt : ∀ s t : Seg CountStr, s.a = t.a → s.b = t.b → ¬ s.lt t := by
    intro s t e1 e2 hst
    unfold Seg.lt at hst
    rw [e1, e2] at hst
    rcases hst with h | ⟨_, h⟩ <;> exact Pt.lt_irrefl _ h
  refine ⟨out, Directed r, Directed (r.filter K), h1, ?_, ?_, ?_, C29_routes st sr tree fuel _ _ _ r hr, ?_⟩
  · rw [h3.nodup_iff, List.nodup_flatMap]
    refine ⟨fun s hs => ?_, ?_⟩
    · have ne := Pt.ne_of_lt (hp.lt s (List.mem_filter.1 hs).1)
      unfold Seg.pieces
      cases s.c.back <;> cases s.c.fwd <;> simp [ne]
    · refine List.Pairwise.imp_of_mem ?_ (hp.sorted.filter K)
      intro s t hs ht hst e h1 h2
      obtain ⟨u, v⟩ := e
      obtain ⟨e1, e2⟩ := uniq s (List.mem_filter.1 hs).1 t (List.mem_filter.1 ht).1 u v h1 h2
      exact notlt s t e1 e2 hst
  · intro u v
    rw [h3.mem_iff, List.mem_flatMap]
    rfl
  · rintro u v ⟨s, hs, h⟩
    exact ⟨s, (List.mem_filter.1 hs).1, h⟩
  · rintro u v ⟨s, hs, h⟩
    have lt := hp.lt s hs
    have hK : Directed (r.filter K) u v ↔ K s = true := by
      constructor
      · rintro ⟨t, ht, h'⟩
        obtain ⟨ht, hk⟩ := List.mem_filter.1 ht
        obtain ⟨e1, e2⟩ := uniq s hs t ht u v h h'
        have : s = t := hp.seg_ext hs ht e1 e2
        rw [this]; exact hk
      · intro hk
        exact ⟨s, List.mem_filter.2 ⟨hs, hk⟩, h⟩
    rcases (mem_pieces s u v).1 h with ⟨hb, rfl, rfl⟩ | ⟨hb, rfl, rfl⟩
    · refine ⟨Pt.ne_of_lt lt, fun m hm => ?_⟩
      obtain ⟨ε, e0, he⟩ := h4 s hs (Or.inl hb) m hm
      exact ⟨ε, e0, fun δ d0 d1 => by rw [hK]; exact he δ d0 d1⟩
    · refine ⟨(Pt.ne_of_lt lt).symm, fun m hm => ?_⟩
      obtain ⟨ε, e0, he⟩ := h4 s hs (Or.inr hb) m (inSeg_symm hm)
      refine ⟨ε, e0, fun δ d0 d1 => ?_⟩
      have c1 : leftOf s.b s.a m δ = leftOf s.a s.b m δ := by
        unfold leftOf; simp only [eq_comm]
      have c2 : rightOf s.b s.a m δ = rightOf s.a s.b m δ := by
        unfold rightOf; simp only [eq_comm]
      rw [hK, c1, c2]
      exact he δ d0 d1

/-! ### witnesses -/

/-- A line crossing a square where the crossing points are not integral: rounding takes place, and the
hypotheses of `C29_routes` and `C29_clip_routes` are met. -/
example :
    (nodedEdges .list ⟨0, 1⟩ (bruteTree CountStr) 9
      (stringSegments [[⟨0, 0⟩, ⟨1, 10⟩, ⟨11, 9⟩, ⟨10, -1⟩]] [[⟨20, 6⟩, ⟨-9, 4⟩, ⟨-9, 5⟩, ⟨20, 7⟩]] [])).isSome ∧
    (roundMarks (SnapRadius.radius ⟨0, 1⟩) (listPairs (mergeIfNeeded (sortSegs
      (stringSegments [[⟨0, 0⟩, ⟨1, 10⟩, ⟨11, 9⟩, ⟨10, -1⟩]] [[⟨20, 6⟩, ⟨-9, 4⟩, ⟨-9, 5⟩, ⟨20, 7⟩]] []))))).2 = true := by
  decide +kernel

end IOverlay
