/-
The sweep that finds the edge below every hole (bind/solver.rs). C26.
-/
import Verif.Below
import Verif.BindLemmas

namespace IOverlay
variable {C : Type}

/-! ### two segments that meet properly -/

theorem meet_symm {a b c d : Pt} (h : MeetAtEnds a b c d) : MeetAtEnds c d a b := fun q x y => (h q y x).symm

theorem pair_planar {f g : Seg C} (hf : f.a < f.b) (hg : g.a < g.b) (h : MeetAtEnds f.a f.b g.a g.b) :
    Planar [f, g] ∨ Planar [g, f] := by
  have hne : ¬ (f.a = g.a ∧ f.b = g.b) := by
    rintro ⟨h1, h2⟩
    rw [h1, h2] at h
    rw [h1, h2] at hf
    have hm : onSeg ⟨((g.a.x:ℚ) + g.b.x) / 2, ((g.a.y:ℚ) + g.b.y) / 2⟩ g.a g.b :=
      ⟨1/2, by norm_num, by norm_num, by simp only; ring, by simp only; ring⟩
    have := (h _ hm hm).1
    rw [Pt.lt_def] at hf
    rcases this with h | h <;> simp only [Pt.q, QPt.mk.injEq] at h
    all_goals
      have e1 : (g.b.x:ℚ) = g.a.x := by linarith [h.1]
      have e2 : (g.b.y:ℚ) = g.a.y := by linarith [h.2]
      have e1' : g.b.x = g.a.x := by exact_mod_cast e1
      have e2' : g.b.y = g.a.y := by exact_mod_cast e2
      omega
  have mk : ∀ {x y : Seg C}, x.a < x.b → y.a < y.b → MeetAtEnds x.a x.b y.a y.b → x.lt y → Planar [x, y] := by
    intro x y hx hy hm hl
    refine ⟨?_, ?_, ?_⟩
    · intro s hs
      simp only [List.mem_cons, List.not_mem_nil, or_false] at hs
      rcases hs with rfl | rfl
      · exact hx
      · exact hy
    · simp [hl]
    · unfold Noded; simp [hm]
  rcases Pt.lt_tri f.a g.a with k | k | k
  · exact Or.inl (mk hf hg h (Or.inl k))
  · rcases Pt.lt_tri f.b g.b with j | j | j
    · exact Or.inl (mk hf hg h (Or.inr ⟨k, j⟩))
    · exact absurd ⟨k, j⟩ hne
    · exact Or.inr (mk hg hf (meet_symm h) (Or.inr ⟨k.symm, j⟩))
  · exact Or.inr (mk hg hf (meet_symm h) (Or.inl k))

/-- Two different edges over a common column. -/
theorem pair_facts {f g : Seg C} (hf : f.a < f.b) (hg : g.a < g.b) (h : MeetAtEnds f.a f.b g.a g.b) (hne : f ≠ g)
    {n : Int} (sf : f.spans n) (sg : g.spans n) :
    (ht f (mid n) ≠ ht g (mid n)) ∧ (ht f (mid n) < ht g (mid n) → vCmp f g = .lt) := by
  rcases pair_planar hf hg h with hp | hp
  · exact ⟨hp.mid_ne (by simp) (by simp) hne sf sg, hp.vCmp_lt (by simp) (by simp) sf sg⟩
  · exact ⟨hp.mid_ne (by simp) (by simp) hne sf sg, hp.vCmp_lt (by simp) (by simp) sf sg⟩

theorem pair_left {f g : Seg C} (hf : f.a < f.b) (hg : g.a < g.b) (h : MeetAtEnds f.a f.b g.a g.b)
    (gx : g.a.x < g.b.x) (sf : f.spans g.a.x) (hl : ht f (mid g.a.x) < ht g (mid g.a.x)) : Before f g := by
  rcases pair_planar hf hg h with hp | hp
  · exact hp.below_left (by simp) (by simp) gx sf hl
  · exact hp.below_left (by simp) (by simp) gx sf hl

theorem pair_fan {f g : Seg C} (hf : f.a < f.b) (hg : g.a < g.b) (h : MeetAtEnds f.a f.b g.a g.b) (hne : f ≠ g)
    (ha : f.a = g.a) : area2 g.a g.b f.b ≠ 0 := by
  rcases pair_planar hf hg h with hp | hp
  · exact hp.fan_ne (by simp) (by simp) hne ha
  · exact hp.fan_ne (by simp) (by simp) hne ha

/-! ### the order of the sweep -/

theorem cross_area {f s : IdSeg} (ha : f.a = s.a) : (f.b.sub f.a).cross (s.b.sub s.a) = area2 s.a s.b f.b := by
  rw [ha]; unfold Vec.cross Pt.sub area2; ring

theorem cmp_lt_iff {f s : IdSeg} : cmpByAThenAngle f s = .lt ↔ Before f s := by
  unfold cmpByAThenAngle Before Pt.cmp
  rcases Pt.lt_tri f.a s.a with h | h | h
  · simp [h]
  · have hn : ¬ f.a < s.a := by rw [h]; exact Pt.lt_irrefl _
    rw [if_neg hn, if_pos h]
    have e : (f.a < s.a ∨ f.a = s.a ∧ 0 < area2 s.a s.b f.b) ↔ 0 < area2 s.a s.b f.b := by
      constructor
      · rintro (k | k)
        · exact absurd k hn
        · exact k.2
      · intro k; exact Or.inr ⟨h, k⟩
    rw [e]
    simp only [Ordering.then]
    unfold cmpByAngle
    rw [Int.compare_eq_lt, cross_area h]
  · rw [if_neg (Pt.lt_asymm h), if_neg (Ne.symm (Pt.ne_of_lt h))]
    simp [Pt.lt_asymm h, Ne.symm (Pt.ne_of_lt h)]

theorem cmp_gt_iff {f s : IdSeg} : cmpByAThenAngle f s = .gt ↔ Before s f := by
  unfold cmpByAThenAngle Before Pt.cmp
  rcases Pt.lt_tri f.a s.a with h | h | h
  · simp [h, Pt.lt_asymm h, Ne.symm (Pt.ne_of_lt h)]
  · have hn : ¬ f.a < s.a := by rw [h]; exact Pt.lt_irrefl _
    have hn' : ¬ s.a < f.a := by rw [h]; exact Pt.lt_irrefl _
    rw [if_neg hn, if_pos h]
    have e : (s.a < f.a ∨ s.a = f.a ∧ 0 < area2 f.a f.b s.b) ↔ 0 < area2 f.a f.b s.b := by
      constructor
      · rintro (k | k)
        · exact absurd k hn'
        · exact k.2
      · intro k; exact Or.inr ⟨h.symm, k⟩
    rw [e]
    simp only [Ordering.then]
    unfold cmpByAngle
    rw [Int.compare_eq_gt, cross_area h, h, fan_swap]
    omega
  · rw [if_neg (Pt.lt_asymm h), if_neg (Ne.symm (Pt.ne_of_lt h))]
    simp [h]

theorem before_irrefl (s : Seg C) : ¬ Before s s := by
  rintro (h | ⟨-, h⟩)
  · exact Pt.lt_irrefl _ h
  · unfold area2 at h
    have : (s.b.x - s.a.x) * (s.b.y - s.b.y) - (s.b.y - s.a.y) * (s.b.x - s.b.x) = 0 := by ring
    omega

theorem before_trans {r s t : Seg C} (hr : r.a < r.b) (hs : s.a < s.b) (ht : t.a < t.b) (h1 : Before r s)
    (h2 : Before s t) : Before r t := by
  rcases h1 with h1 | ⟨h1, k1⟩ <;> rcases h2 with h2 | ⟨h2, k2⟩
  · exact Or.inl (Pt.lt_trans h1 h2)
  · exact Or.inl (by rw [← h2]; exact h1)
  · exact Or.inl (by rw [h1]; exact h2)
  · refine Or.inr ⟨h1.trans h2, ?_⟩
    rw [h1, h2] at hr
    rw [h2] at hs
    rw [h2] at k1
    exact fan_trans hr hs ht k1 k2

/-- What the sweep is given: edges with the result above them and one edge per hole. Any two of them meet only in
end points or have both ends in common; the latter does not happen for two edges with the result above them. -/
structure BindInput (floor anchors : List IdSeg) : Prop where
  slanted : ∀ s ∈ floor ++ anchors, s.a.x < s.b.x
  meet : ∀ f ∈ floor ++ anchors, ∀ g ∈ floor ++ anchors, ¬ (f.a = g.a ∧ f.b = g.b) → MeetAtEnds f.a f.b g.a g.b
  same : ∀ f ∈ floor, ∀ g ∈ floor, f.a = g.a → f.b = g.b → f = g

theorem vCmp_ends {f s : IdSeg} (ha : f.a = s.a) (hb : f.b = s.b) : vCmp f s ≠ .lt := by
  have e : vCmp f s = vCmp s s := by unfold vCmp; rw [ha, hb]
  rw [e]
  intro h
  exact vCmp_asymm h h

section
variable {floor anchors : List IdSeg} (hb : BindInput floor anchors)
include hb

theorem BindInput.lt {s : IdSeg} (hs : s ∈ floor ++ anchors) : s.a < s.b := Or.inl (hb.slanted s hs)

end

/-! ### the loop -/

theorem bindInsert_eq (anchor : IdSeg) : ∀ (segs scan : List IdSeg),
    bindInsert anchor segs scan =
      (segs.dropWhile fun s => decide (cmpByAThenAngle s anchor ≠ .gt),
        scan ++ (segs.takeWhile fun s => decide (cmpByAThenAngle s anchor ≠ .gt)).filter
          fun s => decide (anchor.a.x < s.b.x)) := by
  intro segs
  induction segs with
  | nil => intro scan; simp [bindInsert]
  | cons s rest ih =>
    intro scan
    rw [bindInsert, List.dropWhile_cons, List.takeWhile_cons]
    by_cases h : cmpByAThenAngle s anchor = .gt
    · rw [if_pos h]; simp [h]
    · rw [if_neg h, ih]
      simp only [ne_eq, h, not_false_eq_true, decide_true, if_true]
      by_cases hx : anchor.a.x < s.b.x
      · simp [hx]
      · simp [hx]

/-- The anchor's target is found, and is the parent or the hole processed earlier. -/
structure Target (n len : Nat) (floor : List IdSeg) (later : List Nat) (s m : IdSeg) : Prop where
  below : FirstBelow (· ∈ floor) s m
  shape : m.c.hole = false → m.c.index < n
  hole : m.c.hole = true → m.c.index < len ∧ m.c.index ∉ later

section
variable {floor all : List IdSeg} (hb : BindInput floor all) {o : BindOracle} (ho : o.Ok) {S : List IdSeg}
  (hS : S.Perm floor) (hsort : S.Pairwise fun x y => cmpByAThenAngle x y ≠ .gt)
include hb ho hS hsort

/-- State of the scan before the anchors `rest`. -/
structure ScanState (S pre segs scan rest : List IdSeg) : Prop where
  split : S = pre ++ segs
  sub : ∀ e ∈ scan, e ∈ pre
  live : ∀ e ∈ pre, ∀ s ∈ rest, s.a.x < e.b.x → e ∈ scan
  left : ∀ e ∈ pre, ∀ s ∈ rest, e.a.x ≤ s.a.x

omit ho in
theorem insert_state {pre segs scan rest : List IdSeg} {s : IdSeg} (hs : s ∈ all)
    (hrest : ∀ t ∈ rest, s.a.x ≤ t.a.x) (h : ScanState S pre segs scan (s :: rest)) :
    ∃ pre', ScanState S pre' (bindInsert s segs scan).1 (bindInsert s segs scan).2 (s :: rest) ∧
      ∀ m ∈ floor, Before m s → m ∈ pre' := by
  rw [bindInsert_eq]
  dsimp only
  generalize hT : (segs.takeWhile fun x => decide (cmpByAThenAngle x s ≠ .gt)) = tk
  generalize hD : (segs.dropWhile fun x => decide (cmpByAThenAngle x s ≠ .gt)) = dr
  have hsplit : segs = tk ++ dr := by rw [← hT, ← hD, List.takeWhile_append_dropWhile]
  have htk : ∀ x ∈ tk, ¬ Before s x := by
    intro x hx
    rw [← hT] at hx
    have : decide (cmpByAThenAngle x s ≠ .gt) = true := List.all_eq_true.1 (List.all_takeWhile (l := segs) (p := fun x => decide (cmpByAThenAngle x s ≠ .gt))) x hx
    rw [decide_eq_true_eq] at this
    exact fun k => this (cmp_gt_iff.2 k)
  have htx : ∀ x ∈ tk, x.a.x ≤ s.a.x := by
    intro x hx
    by_contra hc
    exact htk x hx (Or.inl (by rw [Pt.lt_def]; omega))
  have hle : ∀ t ∈ s :: rest, s.a.x ≤ t.a.x := by
    intro t ht
    rcases List.mem_cons.1 ht with rfl | ht
    · exact le_refl _
    · exact hrest t ht
  refine ⟨pre ++ tk, ⟨?_, ?_, ?_, ?_⟩, ?_⟩
  · rw [h.split, hsplit, List.append_assoc]
  · intro e he
    rcases List.mem_append.1 he with he | he
    · exact List.mem_append_left _ (h.sub e he)
    · exact List.mem_append_right _ (List.mem_filter.1 he).1
  · intro e he t ht hx
    rcases List.mem_append.1 he with he | he
    · exact List.mem_append_left _ (h.live e he t ht hx)
    · refine List.mem_append_right _ (List.mem_filter.2 ⟨he, ?_⟩)
      have := hle t ht
      simp only [decide_eq_true_eq]
      omega
  · intro e he t ht
    rcases List.mem_append.1 he with he | he
    · exact h.left e he t ht
    · have := htx e he
      have := hle t ht
      omega
  · intro m hm hms
    have hmS : m ∈ S := hS.mem_iff.2 hm
    rw [h.split, hsplit, ← List.append_assoc] at hmS
    rcases List.mem_append.1 hmS with k | k
    · exact k
    · exfalso
      rcases dr with _ | ⟨y, dr⟩
      · simp at k
      · have hy : cmpByAThenAngle y s = .gt := by
          have := List.head?_dropWhile_not (fun x => decide (cmpByAThenAngle x s ≠ .gt)) segs
          rw [hD] at this
          simpa using this
        have hys := cmp_gt_iff.1 hy
        have hyf : y ∈ floor := hS.mem_iff.1 (by rw [h.split, hsplit]; simp)
        have lm := hb.lt (List.mem_append_left all hm)
        have ly := hb.lt (List.mem_append_left all hyf)
        have ls := hb.lt (List.mem_append_right floor hs)
        have hmy : Before m y := before_trans lm ls ly hms hys
        rcases List.mem_cons.1 k with rfl | k
        · exact before_irrefl _ hmy
        · have hp : (y :: dr).Pairwise fun x y => cmpByAThenAngle x y ≠ .gt := by
            refine hsort.sublist ?_
            rw [h.split, hsplit, ← List.append_assoc]
            exact List.sublist_append_right _ _
          exact (List.pairwise_cons.1 hp).1 m k (cmp_gt_iff.2 hmy)

omit hsort in
/-- One anchor: the target found. -/
theorem lookup_first {pre segs scan rest : List IdSeg} {s m : IdSeg} (hs : s ∈ all)
    (hst : ScanState S pre segs scan (s :: rest)) (hpre : ∀ m ∈ floor, Before m s → m ∈ pre)
    (hm : FirstBelow (· ∈ floor) s m) : o.lookup scan s.a.x s = some m.c := by
  have memf : ∀ e ∈ scan, e ∈ floor := fun e he => hS.mem_iff.1 (by rw [hst.split]; exact List.mem_append_left _ (hst.sub e he))
  have lts := hb.lt (List.mem_append_right floor hs)
  have sx := hb.slanted s (List.mem_append_right floor hs)
  have ss : s.spans s.a.x := ⟨le_refl _, sx⟩
  have facts : ∀ f ∈ floor, f.spans s.a.x → (ht f (mid s.a.x) < ht s (mid s.a.x) ↔ vCmp f s = .lt) := by
    intro f hf sf
    by_cases hends : f.a = s.a ∧ f.b = s.b
    · have e : ht f (mid s.a.x) = ht s (mid s.a.x) := by unfold ht; rw [hends.1, hends.2]
      exact ⟨fun h => absurd e (ne_of_lt h), fun h => absurd h (vCmp_ends hends.1 hends.2)⟩
    · have ltf := hb.lt (List.mem_append_left all hf)
      have hne : f ≠ s := by rintro rfl; exact hends ⟨rfl, rfl⟩
      have hmt := hb.meet _ (List.mem_append_left all hf) _ (List.mem_append_right floor hs) hends
      obtain ⟨a, b⟩ := pair_facts ltf lts hmt hne sf ss
      obtain ⟨_, c⟩ := pair_facts lts ltf (meet_symm hmt) (Ne.symm hne) ss sf
      refine ⟨b, fun hv => ?_⟩
      rcases lt_or_gt_of_ne a with k | k
      · exact k
      · exact absurd hv (vCmp_asymm (c k))
  have hmf : m ∈ floor := hm.mem
  have ltm := hb.lt (List.mem_append_left all hmf)
  have hmends : ¬ (m.a = s.a ∧ m.b = s.b) := by
    rintro ⟨h1, h2⟩
    have := hm.low
    unfold ht at this
    rw [h1, h2] at this
    exact lt_irrefl _ this
  have hmt := hb.meet _ (List.mem_append_left all hmf) _ (List.mem_append_right floor hs) hmends
  have hbm : Before m s := pair_left ltm lts hmt sx hm.spans hm.low
  refine ho.greatest scan s.a.x s m ?_ hm.spans.2 ((facts m hmf hm.spans).1 hm.low) ?_
  · exact hst.live m (hpre m hmf hbm) s (by simp) hm.spans.2
  · intro e he hx hv
    have hef := memf e he
    have se : e.spans s.a.x := ⟨hst.left e (hst.sub e he) s (by simp), hx⟩
    have hlow : ht e (mid s.a.x) < ht s (mid s.a.x) := (facts e hef se).2 hv
    rcases hm.first e hef se hlow with h | h
    · exact Or.inl h
    · right
      have hne : e ≠ m := by rintro rfl; exact lt_irrefl _ h
      exact (pair_facts (hb.lt (List.mem_append_left all hef)) ltm
        (hb.meet _ (List.mem_append_left all hef) _ (List.mem_append_left all hmf)
          (fun k => hne (hb.same _ hef _ hmf k.1 k.2))) hne se hm.spans).2 h

/-- The loop over the anchors. -/
theorem bindLoop_first (n : Nat) : ∀ (rest pre segs scan : List IdSeg) (parents : List Nat),
    (∀ s ∈ rest, s ∈ all) → rest.Pairwise (fun x y => cmpByAThenAngle x y ≠ .gt) →
    (rest.map (·.c.index)).Nodup → (∀ s ∈ rest, s.c.index < parents.length) → (∀ p ∈ parents, p < n) →
    ScanState S pre segs scan rest →
    (∀ l s r, rest = l ++ s :: r → ∃ m, Target n parents.length floor ((s :: r).map (·.c.index)) s m) →
    ∃ ps, bindLoop o n rest segs scan parents = some ps ∧ ps.length = parents.length ∧ (∀ p ∈ ps, p < n) ∧
      (∀ i, i ∉ rest.map (·.c.index) → ps[i]? = parents[i]?) ∧
      ∀ s ∈ rest, ∀ m, FirstBelow (· ∈ floor) s m →
        ps[s.c.index]? = if m.c.hole then ps[m.c.index]? else some m.c.index := by
  intro rest
  induction rest with
  | nil =>
    intro pre segs scan parents _ _ _ _ hp _ _
    exact ⟨parents, rfl, rfl, hp, fun _ _ => rfl, by simp⟩
  | cons s rest ih =>
    intro pre segs scan parents hall hso hnd hidx hp hst htar
    obtain ⟨hso1, hso2⟩ := List.pairwise_cons.1 hso
    rw [List.map_cons, List.nodup_cons] at hnd
    have hs := hall s (by simp)
    have hrest : ∀ t ∈ rest, s.a.x ≤ t.a.x := by
      intro t ht
      by_contra hc
      exact hso1 t ht (cmp_gt_iff.2 (Or.inl (by rw [Pt.lt_def]; omega)))
    obtain ⟨pre', st', hpre'⟩ := insert_state hb hS hsort hs hrest hst
    obtain ⟨m, hm⟩ := htar [] s rest rfl
    have hl := lookup_first hb ho hS hs st' hpre' hm.below
    -- the parent
    obtain ⟨p, hp1, hp2⟩ : ∃ p, (if m.c.hole then parents[m.c.index]? else some m.c.index) = some p ∧ p < n := by
      cases hh : m.c.hole
      · exact ⟨m.c.index, by simp, hm.shape hh⟩
      · have hi := (hm.hole hh).1
        exact ⟨parents[m.c.index], by simp [hi], hp _ (List.getElem_mem hi)⟩
    have hi := hidx s (by simp)
    have st'' : ScanState S pre' (bindInsert s segs scan).1 (bindInsert s segs scan).2 rest :=
      ⟨st'.split, st'.sub, fun e he t ht => st'.live e he t (List.mem_cons_of_mem _ ht),
        fun e he t ht => st'.left e he t (List.mem_cons_of_mem _ ht)⟩
    obtain ⟨ps, q1, q2, q3, q4, q5⟩ := ih pre' _ _ (parents.set s.c.index p)
      (fun t ht => hall t (List.mem_cons_of_mem _ ht)) hso2 hnd.2
      (fun t ht => by rw [List.length_set]; exact hidx t (List.mem_cons_of_mem _ ht))
      (fun x hx => by
        rcases List.mem_or_eq_of_mem_set hx with h | h
        · exact hp x h
        · rw [h]; exact hp2) st''
      (fun l t r e => by
        rw [List.length_set]
        exact htar (s :: l) t r (by rw [e]; rfl))
    rw [List.length_set] at q2
    refine ⟨ps, ?_, q2, q3, ?_, ?_⟩
    · rw [bindLoop]
      simp only [hl, Option.bind_some, hp1]
      rw [if_pos ⟨hi, hp2⟩]
      exact q1
    · intro i hn
      rw [List.map_cons, List.mem_cons] at hn
      push Not at hn
      rw [q4 i hn.2, List.getElem?_set_ne (Ne.symm hn.1)]
    · intro t ht m' hm'
      rcases List.mem_cons.1 ht with rfl | ht
      · -- the target is unique
        have hmm : m' = m := by
          rcases hm.below.first m' hm'.mem hm'.spans hm'.low with h | h
          · exact h
          · rcases hm'.first m hm.below.mem hm.below.spans hm.below.low with h2 | h2
            · exact h2.symm
            · exact absurd h (lt_asymm h2)
        subst hmm
        rw [q4 _ hnd.1, List.getElem?_set_self hi]
        cases hh : m'.c.hole
        · rw [hh] at hp1
          simp only [Bool.false_eq_true, if_false] at hp1 ⊢
          exact hp1.symm
        · rw [hh] at hp1
          simp only [if_true] at hp1 ⊢
          have hno := (hm.hole hh).2
          rw [List.map_cons, List.mem_cons] at hno
          push Not at hno
          rw [q4 _ hno.2, List.getElem?_set_ne (Ne.symm hno.1)]
          exact hp1.symm
      · exact q5 t ht m' hm'

end

end IOverlay
