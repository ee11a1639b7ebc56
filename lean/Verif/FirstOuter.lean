/-
The first contour found by the extraction is an outer boundary.
-/
import Verif.TrailParity
import Verif.Links

namespace IOverlay

section
variable {segs : List (Seg CountBool)} (hp : Planar segs) (hs : Closed CountBool.subj segs)
  (hc : Closed CountBool.clip segs) (rule : FillRule) (r : OverlayRule)
include hp hs hc

open Classical in
/-- Above the topmost kept edge at the leftmost vertex the rule has the value it has far away. -/
theorem top_outside {T : Seg CountBool} (hT : T ∈ segs) (hk : keptB rule r segs T = true)
    (hmin : ∀ f ∈ segs, keptB rule r segs f = true → ¬ f.a < T.a)
    (htop : ∀ f ∈ segs, keptB rule r segs f = true → f.a = T.a → f ≠ T → 0 < area2 T.a T.b f.b) :
    ruleAt rule r (botP segs T + cpair T) = ruleAt rule r (0, 0) := by
  have hTl := hp.lt T hT
  -- below the vertex
  have t1 := column_tele hp hs hc rule r T.a.x (BR T.a) (fun _ => False)
    (fun f _ hf => hf.1)
    (by
      rintro s hm ⟨ss, hlow⟩ f hf
      constructor
      · rintro ⟨sf, h⟩
        refine Or.inr ⟨⟨sf, ?_⟩, h⟩
        exact lt_of_le_of_lt (hp.of_mid hf hm sf ss (x := T.a.x) (by simp) (by linarith) h) hlow
      · rintro (h | ⟨h1, h2⟩)
        · exact h.elim
        · exact ⟨h1.1, h2⟩)
    (fun _ _ h => h.elim)
  -- the fan below T
  have t2 := column_tele hp hs hc rule r T.a.x (fun f => f.a = T.a ∧ fanLt T.a f T) (BR T.a)
    (by
      rintro f hf ⟨h1, h2⟩
      exact fanLt_spans h1 (hp.lt f hf) hTl h2)
    (by
      rintro s hm ⟨h1, h2⟩ f hf
      have ss := fanLt_spans h1 (hp.lt s hm) hTl h2
      constructor
      · rintro ⟨sf, h⟩
        have sf' : f.spans s.a.x := by rw [h1]; exact sf
        have h' : ht f (mid s.a.x) < ht s (mid s.a.x) := by rw [h1]; exact h
        rcases (hp.low_iff hf hm ss.x sf').1 h' with h3 | ⟨h3, h4⟩
        · refine Or.inl ⟨sf, ?_⟩
          rw [h1] at h3; exact h3
        · refine Or.inr ⟨⟨h3.trans h1, ?_⟩, h⟩
          have l1 := hp.lt f hf
          have l2 := hp.lt s hm
          rw [h3, h1] at l1
          rw [h1] at l2 h4
          exact fan_trans l1 l2 hTl h4 h2
      · rintro (⟨sf, h⟩ | ⟨⟨h3, h4⟩, h⟩)
        · refine ⟨sf, ?_⟩
          have sf' : f.spans s.a.x := by rw [h1]; exact sf
          have := (hp.low_iff hf hm ss.x sf').2 (Or.inl (by rw [h1]; exact h))
          rw [h1] at this; exact this
        · exact ⟨fanLt_spans h3 (hp.lt f hf) hTl h4, h⟩)
    (by
      rintro f _ ⟨_, h⟩ ⟨h1, _⟩
      rw [← h1, ht_a] at h; exact lt_irrefl _ h)
  have e0 : psum (fun _ => False) segs = (0, 0) := by unfold psum; simp; rfl
  have z1 : par (keptB rule r segs) (segs.filter fun f => decide (BR T.a f)) = false := by
    have : ∀ f ∈ segs.filter (fun f => decide (BR T.a f)), keptB rule r segs f = (fun _ => false) f := by
      intro f hf
      rw [List.mem_filter, decide_eq_true_eq] at hf
      obtain ⟨hf, ⟨s1, s2⟩, h2⟩ := hf
      cases hkf : keptB rule r segs f
      · rfl
      · exfalso
        have hm := hmin f hf hkf
        rw [Pt.lt_def] at hm
        push Not at hm
        have hx : f.a.x = T.a.x := by omega
        rw [← hx, ht_a] at h2
        have h3 : f.a.y < T.a.y := by exact_mod_cast h2
        have := hm.2 hx
        omega
    rw [par_congr this]
    clear this t1 t2
    generalize segs.filter (fun f => decide (BR T.a f)) = l
    induction l with
    | nil => rfl
    | cons x l ih => rw [par_cons, ih]; rfl
  have z2 : par (keptB rule r segs) (segs.filter fun f => decide (f.a = T.a ∧ fanLt T.a f T)) = true := by
    have he := even_kept hp hs hc rule r T.a
    rw [par_filter] at he ⊢
    rw [par_one_diff hp.nodup hT (p := fun f => decide (f.a = T.a ∨ f.b = T.a) && keptB rule r segs f)
      (p' := fun f => decide (f.a = T.a ∧ fanLt T.a f T) && keptB rule r segs f)] at he
    · have hirr : ¬ fanLt T.a T T := by
        unfold fanLt area2
        intro h
        have : (T.b.x - T.a.x) * (T.b.y - T.b.y) - (T.b.y - T.a.y) * (T.b.x - T.b.x) = 0 := by ring
        omega
      simp only [hk, true_or, decide_true, hirr, and_false, decide_false, Bool.and_true] at he
      revert he
      cases par (fun f => decide (f.a = T.a ∧ fanLt T.a f T) && keptB rule r segs f) segs <;> simp
    · intro f hf hne
      cases hkf : keptB rule r segs f
      · simp
      · have hb : ¬ f.b = T.a := by
          intro h
          have := hp.lt f hf
          rw [h] at this
          exact hmin f hf hkf this
        by_cases ha : f.a = T.a
        · simp [ha, fanLt, htop f hf hkf ha hne]
        · simp [ha, hb]
  rw [e0, z1] at t1
  replace t2 : true = xor (ruleAt rule r (psum (BR T.a) segs))
      (ruleAt rule r (psum (BR T.a) segs + psum (fun f => f.a = T.a ∧ fanLt T.a f T) segs)) := by
    rw [← z2, ← t2]
    congr 1
    refine List.filter_congr fun f _ => ?_
    congr
  have hbot : botP segs T = psum (BR T.a) segs + psum (fun f => f.a = T.a ∧ fanLt T.a f T) segs := by
    rw [← psum_or (by
      rintro f _ ⟨_, h⟩ ⟨h1, _⟩
      rw [← h1, ht_a] at h; exact lt_irrefl _ h), psum_eq]
    have key : ∀ f ∈ segs, ((f.spans T.a.x ∧ (ht f T.a.x < T.a.y ∨ (f.a = T.a ∧ 0 < area2 T.a T.b f.b)))
        ↔ (BR T.a f ∨ (f.a = T.a ∧ fanLt T.a f T))) := by
      intro f hf
      constructor
      · rintro ⟨sf, h | h⟩
        · exact Or.inl ⟨sf, h⟩
        · exact Or.inr h
      · rintro (⟨sf, h⟩ | h)
        · exact ⟨sf, Or.inl h⟩
        · exact ⟨fanLt_spans h.1 (hp.lt f hf) hTl h.2, Or.inr h⟩
    unfold botP botW
    rw [wsum_congr CountBool.subj fun f hf => ind_congr (key f hf),
      wsum_congr CountBool.clip fun f hf => ind_congr (key f hf)]
  have e1 : (0, 0) + psum (BR T.a) segs = psum (BR T.a) segs := by
    change (0 : Int × Int) + _ = _
    rw [zero_add]
  rw [e1] at t1
  unfold keptB at hk
  rw [hbot] at hk ⊢
  revert t1 t2 hk
  cases ruleAt rule r (0, 0) <;> cases ruleAt rule r (psum (BR T.a) segs) <;>
    cases ruleAt rule r (psum (BR T.a) segs + psum (fun f => f.a = T.a ∧ fanLt T.a f T) segs) <;>
    cases ruleAt rule r (psum (BR T.a) segs + psum (fun f => f.a = T.a ∧ fanLt T.a f T) segs + cpair T) <;> simp

end

theorem ruleAt_zero (rule : FillRule) (r : OverlayRule) : ruleAt rule r (0, 0) = false := by
  cases rule <;> cases r <;> rfl

/-! ### the start link -/

section
variable {g : Graph} {V : List Pt} (hg : GraphOk g V) (hpl : Planar (g.links.map Link.seg))
include hg hpl

/-- When every link starting further left is visited, the start link chosen is the topmost unvisited
link of the leftmost vertex. -/
theorem findLeftTop_top {vis : List Bool} (hd : ∀ n, dpar g vis n = false) {li lt : Nat} {m l : Link}
    (hm : g.links[li]? = some m) (hv : isVisited vis li = false)
    (hprev : ∀ i f, g.links[i]? = some f → f.a < m.a → isVisited vis i = true)
    (h : findLeftTop g li vis = some lt) (hl : g.links[lt]? = some l) :
    isVisited vis lt = false ∧ l.a = m.a ∧
    ∀ i f, g.links[i]? = some f → isVisited vis i = false → f.a = m.a → i ≠ lt → 0 < area2 m.a l.b f.b := by
  obtain ⟨lt', l', f1, f2, f3⟩ := findLeftTop_spec hg hd (List.getElem?_eq_some_iff.1 hm).1 hv
  rw [h] at f1
  obtain rfl := Option.some.inj f1
  rw [hl] at f2
  obtain rfl := Option.some.inj f2
  refine ⟨f3, ?_⟩
  have hmem := List.mem_of_getElem? hm
  obtain ⟨nd, hnd⟩ : ∃ nd, g.nodes[m.aId]? = some nd := ⟨_, List.getElem?_eq_getElem (id_lt hg hmem).1⟩
  have hmi := mem_indices hg hnd
  have hVinj : ∀ {i j : Nat} {v w : Pt}, V[i]? = some v → V[j]? = some w → (i = j ↔ v = w) := by
    intro i j v w hi hj
    have hnd' : V.Nodup := hg.sorted.imp fun {a b} h => Pt.ne_of_lt h
    constructor
    · rintro rfl; rw [hi] at hj; exact Option.some.inj hj
    · rintro rfl
      exact (List.getElem?_inj (List.getElem?_eq_some_iff.1 hi).1 hnd').1 (hi.trans hj.symm)
  -- unvisited links at the node start there
  have start : ∀ (i : Nat) (f : Link), g.links[i]? = some f → isVisited vis i = false → inc g i m.aId = true → f.a = m.a := by
    intro i f hf hvi hin
    obtain ⟨f', hf', h'⟩ := inc_get hin
    rw [hf] at hf'
    obtain rfl := Option.some.inj hf'
    have hfm := List.mem_of_getElem? hf
    rcases h' with h' | h'
    · exact (hVinj (hg.aId f hfm) (hg.aId m hmem)).1 h'
    · have := (hVinj (hg.bId f hfm) (hg.aId m hmem)).1 h'
      have hlt := hg.lt f hfm
      rw [this] at hlt
      rw [hprev i f hf hlt] at hvi
      exact absurd hvi (by simp)
  have at' : ∀ (i : Nat) (f : Link), g.links[i]? = some f → f.a = m.a → inc g i m.aId = true := by
    intro i f hf ha
    refine inc_of hf (Or.inl ?_)
    exact (hVinj (hg.aId f (List.mem_of_getElem? hf)) (hg.aId m hmem)).2 ha
  -- two different links starting at the node differ in direction
  have fne : ∀ (i j : Nat) (f f' : Link), g.links[i]? = some f → g.links[j]? = some f' → i ≠ j → f.a = m.a → f'.a = m.a →
      area2 m.a f.b f'.b ≠ 0 := by
    intro i j f f' hi hj hij ha ha'
    have := hpl.fan_ne (f := f'.seg) (s := f.seg) (List.mem_map_of_mem (List.mem_of_getElem? hj))
      (List.mem_map_of_mem (List.mem_of_getElem? hi))
      (fun e => hij (link_inj hpl hj hi e).symm) (ha'.trans ha.symm)
    change area2 f.a f.b f'.b ≠ 0 at this
    rwa [ha] at this
  have after : ∀ (i : Nat) (f : Link), g.links[i]? = some f → f.a = m.a → m.a < f.b := by
    intro i f hf ha
    rw [← ha]; exact hg.lt f (List.mem_of_getElem? hf)
  unfold findLeftTop at h
  rw [hm, Option.bind_some, hnd, Option.bind_some] at h
  cases nd with
  | bridge i j =>
    have e : ∀ x, x ∈ (Node.bridge i j).indices ↔ x = i ∨ x = j := by intro x; simp [Node.indices]
    simp only [leftTopBridge] at h
    obtain ⟨l0, h0, h⟩ := Option.bind_eq_some_iff.1 h
    obtain ⟨l1, h1, h⟩ := Option.bind_eq_some_iff.1 h
    have hlt := (Option.some.inj h).symm
    have hla : l.a = m.a := by
      refine start lt l hl f3 ((hmi lt).1 ((e lt).2 ?_))
      rw [hlt]; split <;> simp
    refine ⟨hla, ?_⟩
    intro k f hf hvk hfa hne
    have hk := (e k).1 ((hmi k).2 (at' k f hf hfa))
    by_cases c : isClockwise l0.a l0.b l1.b = true
    · rw [if_pos c] at hlt
      subst hlt
      rw [h0] at hl
      obtain rfl := Option.some.inj hl
      rcases hk with rfl | rfl
      · exact absurd rfl hne
      · rw [h1] at hf
        obtain rfl := Option.some.inj hf
        rw [isClockwise_iff, hla] at c
        exact c
    · rw [if_neg c] at hlt
      subst hlt
      rw [h1] at hl
      obtain rfl := Option.some.inj hl
      rcases hk with rfl | rfl
      · rw [h0] at hf
        obtain rfl := Option.some.inj hf
        rw [isClockwise_iff, hfa] at c
        have := fne _ _ _ _ h0 h1 hne hfa hla
        rw [fan_swap]
        omega
      · exact absurd rfl hne
  | cross indices =>
    have hr : ∀ i ∈ indices, i < g.links.length := fun i hi => inc_lt ((hmi i).1 hi)
    have hcov : ∀ (i : Nat) (f : Link), g.links[i]? = some f → f.a = m.a → i ∈ indices := fun i f hf ha => (hmi i).2 (at' i f hf ha)
    have main : ∀ (is : List Nat) (t : Nat) (tl : Link) (seen : List Nat), (∀ i ∈ is, i ∈ indices) →
        g.links[t]? = some tl → tl.a = m.a → isVisited vis t = false →
        (∀ i ∈ seen, ∀ f, g.links[i]? = some f → isVisited vis i = false → f.a = m.a → i ≠ t →
          0 < area2 m.a tl.b f.b) → li ∈ seen →
        leftTopIndices g li vis is t tl = some lt →
        l.a = m.a ∧ ∀ i ∈ seen ++ is, ∀ f, g.links[i]? = some f → isVisited vis i = false → f.a = m.a → i ≠ lt →
          0 < area2 m.a l.b f.b := by
      intro is
      induction is with
      | nil =>
        intro t tl seen _ h1 h2 h3 h4 _ h5
        rw [leftTopIndices] at h5
        obtain rfl := Option.some.inj h5
        rw [hl] at h1
        obtain rfl := Option.some.inj h1
        rw [List.append_nil]
        exact ⟨h2, h4⟩
      | cons i is ih =>
        intro t tl seen h0 h1 h2 h3 h4 h6 h5
        have hi := h0 i (by simp)
        have h0' : ∀ i ∈ is, i ∈ indices := fun j hj => h0 j (List.mem_cons_of_mem _ hj)
        have app : seen ++ i :: is = (seen ++ [i]) ++ is := by simp
        rw [app]
        rw [leftTopIndices] at h5
        split at h5
        · rename_i hil
          refine ih t tl (seen ++ [i]) h0' h1 h2 h3 ?_ (List.mem_append_left _ h6) h5
          intro j hj
          rcases List.mem_append.1 hj with hj | hj
          · exact h4 j hj
          · rw [List.mem_singleton] at hj
            subst hj
            intro f hf hvf hfa hjt
            rw [← hil] at h6
            exact h4 j h6 f hf hvf hfa hjt
        · obtain ⟨fi, hfi, h5⟩ := Option.bind_eq_some_iff.1 h5
          split at h5
          · rename_i hcond
            refine ih t tl (seen ++ [i]) h0' h1 h2 h3 ?_ (List.mem_append_left _ h6) h5
            intro j hj
            rcases List.mem_append.1 hj with hj | hj
            · exact h4 j hj
            · rw [List.mem_singleton] at hj
              subst hj
              intro f hf hvf hfa hjt
              rw [hfi] at hf
              obtain rfl := Option.some.inj hf
              have hdir : fi.isDirect = true := by
                unfold Link.isDirect
                exact decide_eq_true (hg.lt fi (List.mem_of_getElem? hfi))
              rw [hdir] at hcond
              simp only [Bool.not_true, Bool.false_or] at hcond
              rw [isClockwise_iff, h2] at hcond
              exact hcond
          · rename_i hcond
            split at h5
            · rename_i hvi
              refine ih t tl (seen ++ [i]) h0' h1 h2 h3 ?_ (List.mem_append_left _ h6) h5
              intro j hj
              rcases List.mem_append.1 hj with hj | hj
              · exact h4 j hj
              · rw [List.mem_singleton] at hj
                subst hj
                intro f hf hvf
                rw [hvi] at hvf
                exact absurd hvf (by simp)
            · rename_i hvi
              have hvi' : isVisited vis i = false := by simpa using hvi
              have hfa := start i fi hfi hvi' ((hmi i).1 hi)
              have hnc : ¬ 0 < area2 m.a tl.b fi.b := by
                intro hpos
                apply hcond
                rw [Bool.or_eq_true, isClockwise_iff, h2]
                exact Or.inr hpos
              refine ih i fi (seen ++ [i]) h0' hfi hfa hvi' ?_ (List.mem_append_left _ h6) h5
              · intro j hj f hf hvf hfa' hji
                have up : t ≠ i → 0 < area2 m.a fi.b tl.b := by
                  intro hti
                  have := fne t i tl fi h1 hfi hti h2 hfa
                  rw [fan_swap]; omega
                rcases List.mem_append.1 hj with hj1 | hj1
                · by_cases hjt : j = t
                  · subst hjt
                    rw [h1] at hf
                    obtain rfl := Option.some.inj hf
                    exact up hji
                  · by_cases hti : t = i
                    · subst hti
                      rw [h1] at hfi
                      obtain rfl := Option.some.inj hfi
                      exact h4 j hj1 f hf hvf hfa' hji
                    · exact fan_trans (after j f hf hfa') (after t tl h1 h2) (after i fi hfi hfa)
                        (h4 j hj1 f hf hvf hfa' hjt) (up hti)
                · exact absurd (List.mem_singleton.1 hj1) hji
    obtain ⟨r1, r2⟩ := main indices li m [li] (fun _ h => h) hm rfl hv (by
      intro i hi f _ _ _ hne; exact absurd (List.mem_singleton.1 hi) hne) (by simp) h
    exact ⟨r1, fun i f hf hvi hfa hne => r2 i (List.mem_append_right _ (hcov i f hf hfa)) f hf hvi hfa hne⟩

end

end IOverlay
