/-
Walking along the boundary of a face: at every vertex the next edge in rotation order is taken. Such a walk does not
cross itself: no two vertices alternate on it. C31, C58.
-/
import Verif.Orient
import Verif.Props.Loops

namespace IOverlay

/-! ### steps as directed edges -/

/-- A step as directed edge. -/
def dartOf (e : Pt × Pt) : Dart (Pt × Pt) :=
  if e.1 < e.2 then ⟨⟨e.1, e.2, e⟩, true⟩ else ⟨⟨e.2, e.1, e.swap⟩, false⟩

theorem dartOf_start (e : Pt × Pt) : (dartOf e).start = e.1 := by
  unfold dartOf Dart.start; split <;> rfl

theorem dartOf_finish (e : Pt × Pt) : (dartOf e).finish = e.2 := by
  unfold dartOf Dart.finish; split <;> rfl

theorem dartOf_at_fst (e : Pt × Pt) : (dartOf e).s.at e.1 := by
  have := (dartOf e).at_start; rwa [dartOf_start] at this

theorem dartOf_at_snd (e : Pt × Pt) : (dartOf e).s.at e.2 := by
  have := (dartOf e).at_finish; rwa [dartOf_finish] at this

theorem dartOf_swap {e : Pt × Pt} (h : e.1 ≠ e.2) : (dartOf e.swap).s = (dartOf e).s ∧ (dartOf e.swap).fwd = !(dartOf e).fwd := by
  unfold dartOf
  rcases Pt.lt_tri e.1 e.2 with c | c | c
  · have : ¬ e.2 < e.1 := Pt.lt_asymm c
    simp [c, this]
  · exact absurd c h
  · have : ¬ e.1 < e.2 := Pt.lt_asymm c
    simp [c, this]

theorem dartOf_cases (e : Pt × Pt) : e = ((dartOf e).s.a, (dartOf e).s.b) ∨ e = ((dartOf e).s.b, (dartOf e).s.a) := by
  unfold dartOf; split
  · left; rfl
  · right; rfl

theorem dartOf_seg {e f : Pt × Pt} (h : (dartOf e).s = (dartOf f).s) : e = f ∨ e = f.swap := by
  rcases dartOf_cases e with h1 | h1 <;> rcases dartOf_cases f with h2 | h2 <;> rw [h] at h1
  · left; rw [h1, h2]; simp [← h2]
  · right; rw [h1]; rw [Prod.ext_iff] at h2 ⊢; exact ⟨h2.2.symm, h2.1.symm⟩
  · right; rw [h1]; rw [Prod.ext_iff] at h2 ⊢; exact ⟨h2.2.symm, h2.1.symm⟩
  · left; rw [h1]; exact h2.symm

/-- The edge with the given ends. -/
theorem dartOf_ab {s : Edge} (hk : s.c = (s.a, s.b)) (hlt : s.a < s.b) : dartOf (s.a, s.b) = ⟨s, true⟩ := by
  unfold dartOf
  rw [if_pos hlt]
  obtain ⟨a, b, c⟩ := s
  simp only at hk
  rw [hk]

/-! ### steps around a face -/

/-- `f` is the edge that follows `e` when turning at its end. -/
def FaceStep (cw : Bool) (E : List Edge) (e f : Pt × Pt) : Prop :=
  (dartOf e).s ∈ E ∧ (dartOf f).s ∈ E ∧ e.2 = f.1 ∧ ∀ h ∈ E, h.at e.2 → h ≠ (dartOf f).s →
    sw cw e.2 (dartOf e).s (dartOf f).s < sw cw e.2 (dartOf e).s h

theorem sw_not {C : Type} (cw : Bool) (p : Pt) (e f : Seg C) : sw (!cw) p f e = sw cw p e f := by
  unfold sw; cases cw <;> rfl

theorem exists_min {α : Type} (l : List α) (h : l ≠ []) (f : α → ℝ) : ∃ x ∈ l, ∀ y ∈ l, f x ≤ f y := by
  induction l with
  | nil => exact absurd rfl h
  | cons a l ih =>
    by_cases hl : l = []
    · subst hl; exact ⟨a, by simp, by simp⟩
    · obtain ⟨x, hx, hm⟩ := ih hl
      by_cases hax : f x ≤ f a
      · exact ⟨x, by simp [hx], by
          intro y hy
          rcases List.mem_cons.1 hy with rfl | hy
          · exact hax
          · exact hm y hy⟩
      · exact ⟨a, by simp, by
          intro y hy
          rcases List.mem_cons.1 hy with rfl | hy
          · exact le_refl _
          · exact le_trans (le_of_lt (not_le.1 hax)) (hm y hy)⟩

section
variable {E : List Edge} (hp : Planar E)
include hp

theorem step_ne {e : Pt × Pt} (he : (dartOf e).s ∈ E) : e.1 ≠ e.2 := by
  have := hp.start_ne he
  rwa [dartOf_start, dartOf_finish] at this

/-- If the walk turns back, there is no other edge at the vertex. -/
theorem FaceStep.alone {cw : Bool} {e f : Pt × Pt} (h : FaceStep cw E e f) (hs : (dartOf e).s = (dartOf f).s) :
    ∀ h ∈ E, h.at e.2 → h = (dartOf e).s := by
  intro g hg hat
  by_contra hne
  have := h.2.2.2 g hg hat (by rwa [← hs])
  rw [← hs] at this
  have b1 := hp.ang_bounds h.1 (dartOf_at_snd e)
  have b2 := hp.ang_bounds hg hat
  have hpi := Real.pi_pos
  unfold sw angleStep at this
  cases cw <;> simp only [if_true, if_false, Bool.false_eq_true, lt_irrefl] at this <;> split at this <;> linarith

theorem FaceStep.unique {cw : Bool} {e f f' : Pt × Pt} (h : FaceStep cw E e f) (h' : FaceStep cw E e f') : f = f' := by
  by_cases hs : (dartOf f).s = (dartOf f').s
  · rcases dartOf_seg hs with e1 | e1
    · exact e1
    · exfalso
      have h1 := h.2.2.1
      have h2 := h'.2.2.1
      rw [e1] at h1
      have : f'.1 = f'.2 := by rw [← h2, h1]; rfl
      exact step_ne hp h'.2.1 this
  · exfalso
    have a1 : (dartOf f').s.at e.2 := by rw [h'.2.2.1]; exact dartOf_at_fst f'
    have a2 : (dartOf f).s.at e.2 := by rw [h.2.2.1]; exact dartOf_at_fst f
    have := h.2.2.2 _ h'.2.1 a1 (Ne.symm hs)
    have := h'.2.2.2 _ h.2.1 a2 hs
    linarith

theorem FaceStep.rev {cw : Bool} {e f : Pt × Pt} (h : FaceStep cw E e f) : FaceStep (!cw) E f.swap e.swap := by
  have ne := step_ne hp h.1
  have nf := step_ne hp h.2.1
  have h1 := h.1
  have h2 := h.2.1
  unfold FaceStep
  rw [(dartOf_swap ne).1, (dartOf_swap nf).1]
  refine ⟨h.2.1, h.1, h.2.2.1.symm, ?_⟩
  intro g hg hat hne
  have e1 : f.swap.2 = e.2 := h.2.2.1.symm
  rw [e1] at hat ⊢
  rw [sw_not, show sw (!cw) e.2 (dartOf f).s g = sw cw e.2 g (dartOf f).s from sw_not cw e.2 g (dartOf f).s]
  have a2 : (dartOf f).s.at e.2 := by rw [h.2.2.1]; exact dartOf_at_fst f
  have be := hp.ang_bounds h.1 (dartOf_at_snd e)
  have bf := hp.ang_bounds h.2.1 a2
  have bg := hp.ang_bounds hg hat
  have n1 : g.ang e.2 ≠ (dartOf e).s.ang e.2 := fun c => hne (hp.ang_inj hg h.1 hat (dartOf_at_snd e) c)
  have hpi := Real.pi_pos
  by_cases hs : (dartOf e).s = (dartOf f).s
  · exact absurd (h.alone hp hs g hg hat) hne
  have n2 : (dartOf f).s.ang e.2 ≠ (dartOf e).s.ang e.2 := fun c => hs (hp.ang_inj h.2.1 h.1 a2 (dartOf_at_snd e) c).symm
  by_cases hgf : g = (dartOf f).s
  · rw [hgf]
    unfold sw angleStep
    cases cw <;> simp only [if_true, if_false, Bool.false_eq_true, lt_irrefl] <;>
      rcases lt_or_gt_of_ne n2 with c | c <;>
      (have d := not_lt.2 c.le; simp only [c, d, if_true, if_false]; linarith)
  · have := h.2.2.2 g hg hat hgf
    unfold sw angleStep at *
    generalize g.ang e.2 = G at *
    generalize (dartOf e).s.ang e.2 = A at *
    generalize (dartOf f).s.ang e.2 = B at *
    cases cw <;> simp only [if_true, if_false, Bool.false_eq_true] at * <;>
      rcases lt_or_gt_of_ne n2 with c | c <;> rcases lt_or_gt_of_ne n1 with c' | c' <;>
      (have d := not_lt.2 c.le; have d' := not_lt.2 c'.le
       simp only [c, d, c', d', if_true, if_false] at this ⊢
       split_ifs <;> linarith)

theorem FaceStep.unique_left {cw : Bool} {e e' f : Pt × Pt} (h : FaceStep cw E e f) (h' : FaceStep cw E e' f) : e = e' := by
  have := (h.rev hp).unique hp (h'.rev hp)
  exact Prod.swap_injective this

/-- Every edge is followed by one. -/
theorem FaceStep.exists (hk : Keyed E) (cw : Bool) {e : Pt × Pt} (he : (dartOf e).s ∈ E) : ∃ f, FaceStep cw E e f := by
  classical
  obtain ⟨g, hg, hmin⟩ := exists_min (E.filter fun s : Edge => decide (Seg.at s e.2)) (by
    intro h
    rw [List.filter_eq_nil_iff] at h
    exact h _ he (by simpa using dartOf_at_snd e)) (fun s => sw cw e.2 (dartOf e).s s)
  rw [List.mem_filter, decide_eq_true_eq] at hg
  obtain ⟨hgE, hat⟩ := hg
  obtain ⟨f, f1, f2⟩ : ∃ f : Pt × Pt, (dartOf f).s = g ∧ f.1 = e.2 := by
    have hd := dartOf_ab (hk g hgE) (hp.lt g hgE)
    rcases hat with h | h
    · exact ⟨(g.a, g.b), by rw [hd], h⟩
    · refine ⟨(g.b, g.a), ?_, h⟩
      have := (dartOf_swap (e := (g.a, g.b)) (hp.ab_ne hgE)).1
      rw [hd] at this
      exact this
  refine ⟨f, he, by rw [f1]; exact hgE, f2.symm, ?_⟩
  intro h hh hhat hne
  rw [f1] at hne ⊢
  have h1 := hmin h (List.mem_filter.2 ⟨hh, by simpa using hhat⟩)
  refine lt_of_le_of_ne h1 fun c => hne ?_
  refine hp.ang_inj hh hgE hhat hat ?_
  have be := hp.ang_bounds he (dartOf_at_snd e)
  have bg := hp.ang_bounds hgE hat
  have bh := hp.ang_bounds hh hhat
  unfold sw angleStep at c
  cases cw <;> simp only [if_true, if_false, Bool.false_eq_true] at c <;> split_ifs at c <;> linarith

/-! ### values along a walk -/

theorem Planar.far_finish (cw : Bool) (φ : Pt × Pt → Int) {d : Dart (Pt × Pt)} (h : d.s ∈ E) :
    far cw φ E d = if cw then ccwSide φ E d.finish d.s else cwSide φ E d.finish d.s := by
  have hn := hp.ab_ne h
  unfold far cwSide ccwSide Dart.finish
  cases cw <;> cases d.fwd <;> simp [hn]

theorem hug_swap (cw : Bool) (φ : Pt × Pt → Int) {e : Pt × Pt} (he : (dartOf e).s ∈ E) :
    hug cw φ E (dartOf e.swap) = far cw φ E (dartOf e) := by
  obtain ⟨h1, h2⟩ := dartOf_swap (step_ne hp he)
  unfold hug far
  rw [h1, h2]
  cases (dartOf e).fwd <;> cases cw <;> rfl

theorem flux_swap (φ : Pt × Pt → Int) {e : Pt × Pt} (he : (dartOf e).s ∈ E) :
    flux φ (dartOf e.swap) = - flux φ (dartOf e) := by
  obtain ⟨h1, h2⟩ := dartOf_swap (step_ne hp he)
  unfold flux Dart.sign
  rw [h1, h2]
  cases (dartOf e).fwd <;> simp

/-- The values on the two sides of a turn without flow in between. -/
theorem Planar.wedge_empty {φ : Pt × Pt → Int} (hc : Closed φ E) {p : Pt} {e f : Edge} (he : e ∈ E) (hf : f ∈ E)
    (hep : e.at p) (hfp : f.at p) (hne : e ≠ f) (cw : Bool)
    (h0 : ∀ h ∈ E, h.at p → sw cw p e h < sw cw p e f → φ h.c = 0) :
    if cw then cwSide φ E p e = ccwSide φ E p f else cwSide φ E p f = ccwSide φ E p e := by
  have h := hp.wedge hc he hf hep hfp hne cw
  have hz : wsum φ (fun h => outw p h * ind (sw cw p e h < sw cw p e f)) E = 0 := by
    unfold wsum
    apply List.sum_eq_zero
    intro x hx
    obtain ⟨s, hs, rfl⟩ := List.mem_map.1 hx
    beta_reduce
    by_cases c1 : s.at p
    · by_cases c2 : sw cw p e s < sw cw p e f
      · rw [h0 s hs c1 c2]; ring
      · rw [ind_false c2]; ring
    · rw [outw_zero c1]; ring
  rw [hz] at h
  cases cw
  · simp only [Bool.false_eq_true, if_false] at h ⊢; omega
  · simp only [if_true] at h ⊢; omega

/-- The value on the inner side does not change at a turn. -/
theorem FaceStep.hug_eq {cw : Bool} {e f : Pt × Pt} (h : FaceStep cw E e f) {φ : Pt × Pt → Int} (hc : Closed φ E) :
    hug cw φ E (dartOf e) = hug cw φ E (dartOf f) := by
  have a2 : (dartOf f).s.at e.2 := by rw [h.2.2.1]; exact dartOf_at_fst f
  rw [hp.hug_finish cw φ h.1, hp.hug_start cw φ h.2.1, dartOf_finish, dartOf_start, ← h.2.2.1]
  by_cases hs : (dartOf e).s = (dartOf f).s
  · have hal := h.alone hp hs
    have hz := hp.outw_closed hc e.2
    have h0 : φ (dartOf e).s.c * outw e.2 (dartOf e).s = 0 := by
      rw [← hz]
      have : wsum φ (outw e.2) E = wsum φ (fun s => outw e.2 (dartOf e).s * ind (s = (dartOf e).s)) E := by
        refine wsum_congr φ fun s hs => ?_
        by_cases c : s = (dartOf e).s
        · rw [c, ind_true rfl]; ring
        · rw [outw_zero fun hat => c (hal s hs hat), ind_false c]; ring
      rw [this, wsum_mul, wsum_single φ hp.nodup h.1]; ring
    have h1 := hp.ccwSide_eq φ h.1 (dartOf_at_snd e)
    rw [h0, add_zero] at h1
    rw [← hs, h1]
  · have := hp.wedge_empty hc h.1 h.2.1 (dartOf_at_snd e) a2 hs cw (by
      intro g hg hat hlt
      exfalso
      by_cases c : g = (dartOf f).s
      · rw [c] at hlt; exact lt_irrefl _ hlt
      · exact absurd hlt (not_lt.2 (h.2.2.2 g hg hat c).le))
    cases cw
    · simp only [Bool.false_eq_true, if_false] at this ⊢; exact this.symm
    · simp only [if_true] at this ⊢; exact this

end

/-- Consecutive steps around a face. -/
def FaceChain (cw : Bool) (E : List Edge) (D : List (Pt × Pt)) : Prop := D.IsChain (FaceStep cw E)

/-- The flow of a list of steps. -/
noncomputable def stepFlow (L : List (Pt × Pt)) : Pt × Pt → Int := onKeys (trav (L.map dartOf))

theorem trav_cons (d : Dart (Pt × Pt)) (D : List (Dart (Pt × Pt))) (s : Edge) :
    trav (d :: D) s = d.sign * ind (s = d.s) + trav D s := by
  unfold trav; rw [List.map_cons, List.sum_cons]

theorem trav_steps {E : List Edge} (hp : Planar E) {L : List (Pt × Pt)} (hL : ∀ e ∈ L, (dartOf e).s ∈ E) {e : Pt × Pt}
    (he : (dartOf e).s ∈ E) : (dartOf e).sign * trav (L.map dartOf) (dartOf e).s = (L.count e : Int) - L.count e.swap := by
  have hne := step_ne hp he
  have hns : e ≠ e.swap := by
    intro h
    exact hne (congrArg Prod.fst h)
  induction L with
  | nil => simp [trav]
  | cons x L ih =>
    rw [List.map_cons, trav_cons, mul_add, ih fun y hy => hL y (List.mem_cons_of_mem _ hy), List.count_cons, List.count_cons]
    by_cases c1 : x = e
    · subst c1
      rw [ind_true rfl, mul_one, (dartOf x).sign_sq]
      simp [hns]; ring
    · by_cases c2 : x = e.swap
      · subst c2
        obtain ⟨h1, h2⟩ := dartOf_swap hne
        have : (dartOf e).sign * (dartOf e.swap).sign = -1 := by
          unfold Dart.sign; rw [h2]; cases (dartOf e).fwd <;> rfl
        rw [h1, ind_true rfl, mul_one, this]
        simp [hns.symm]; ring
      · have : (dartOf e).s ≠ (dartOf x).s := by
          intro h
          rcases dartOf_seg h with h | h
          · exact c1 h.symm
          · exact c2 (by rw [h]; simp)
        rw [ind_false this]
        simp [c1, c2]

section
variable {E : List Edge} (hp : Planar E) (hk : Keyed E)
include hp hk

theorem stepFlow_flux {L : List (Pt × Pt)} (hL : ∀ e ∈ L, (dartOf e).s ∈ E) {e : Pt × Pt}
    (he : (dartOf e).s ∈ E) : flux (stepFlow L) (dartOf e) = (L.count e : Int) - L.count e.swap := by
  unfold flux stepFlow
  rw [onKeys_eq hk _ he]
  exact trav_steps hp hL he

/-- As many steps leave every point as enter it. -/
theorem stepFlow_closed {L : List (Pt × Pt)} (hL : ∀ e ∈ L, (dartOf e).s ∈ E)
    (h : ∀ f : Pt → Int, (L.map fun e => f e.1 - f e.2).sum = 0) : Closed (stepFlow L) E := by
  intro f
  have h1 := wsum_trav hp hk (fun s => f s.a - f s.b) (L.map dartOf) (by
    intro d hd
    obtain ⟨e, he, rfl⟩ := List.mem_map.1 hd
    exact hL e he)
  change wsum (stepFlow L) (fun s => f s.a - f s.b) E = 0
  unfold stepFlow
  rw [h1, List.map_map, ← h f]
  congr 1
  refine List.map_congr_left fun e _ => ?_
  simp only [Function.comp]
  unfold Dart.sign dartOf
  split <;> simp

theorem stepFlow_zero {L : List (Pt × Pt)} {s : Edge} (hs : s ∈ E) (h : ∀ e ∈ L, (dartOf e).s ≠ s) : stepFlow L s.c = 0 := by
  unfold stepFlow
  rw [onKeys_eq hk _ hs]
  refine trav_zero ?_
  intro hm
  obtain ⟨d, hd, h1⟩ := List.mem_map.1 hm
  obtain ⟨e, he, rfl⟩ := List.mem_map.1 hd
  exact h e he h1

/-- A closed part `L` of a walk around faces is not met from its inner side at a vertex it passes. -/
theorem no_cross {cw : Bool} {L : List (Pt × Pt)} (hL : ∀ e ∈ L, (dartOf e).s ∈ E) (hnd : L.Nodup)
    (hc : Closed (stepFlow L) E) {m : Int} (hm : ∀ e ∈ L, hug cw (stepFlow L) E (dartOf e) = m)
    {y : Pt × Pt} (hy : (dartOf y).s ∈ E) (hyL : y ∉ L) (hym : hug cw (stepFlow L) E (dartOf y) = m)
    (hin : ∀ z ∈ L, z.1 = y.2 → ∃ u ∈ L, FaceStep cw E u z) {z : Pt × Pt} (hz : z ∈ L) (hzp : z.1 = y.2) : False := by
  classical
  have hside : side cw ≠ 0 := by unfold side; cases cw <;> decide
  have c0 : L.count y = 0 := List.count_eq_zero.2 hyL
  have hys : y.swap ∉ L := by
    intro h
    have h1 := hug_far cw (stepFlow L) E (dartOf y)
    rw [stepFlow_flux hp hk hL hy, c0, hym, ← hug_swap hp cw _ hy, hm _ h] at h1
    have c1 : L.count y.swap = 1 := List.count_eq_one_of_mem hnd h
    rw [c1] at h1
    simp at h1
    exact hside h1
  have hnot : ∀ e ∈ L, (dartOf e).s ≠ (dartOf y).s := by
    intro e he h
    rcases dartOf_seg h with h | h
    · exact hyL (h ▸ he)
    · exact hys (h ▸ he)
  obtain ⟨g, hg, hmin⟩ := exists_min (E.filter fun s : Edge => decide (Seg.at s y.2 ∧ ∃ d ∈ L, (dartOf d).s = s)) (by
    intro h
    rw [List.filter_eq_nil_iff] at h
    refine h _ (hL z hz) ?_
    rw [decide_eq_true_eq]
    exact ⟨by rw [← hzp]; exact dartOf_at_fst z, z, hz, rfl⟩) (fun s => sw cw y.2 (dartOf y).s s)
  rw [List.mem_filter, decide_eq_true_eq] at hg
  obtain ⟨hgE, hgat, d, hd, rfl⟩ := hg
  have hgy := hnot d hd
  have hw := hp.wedge_empty hc hy hgE (dartOf_at_snd y) hgat (Ne.symm hgy) cw (by
    intro h hh hat hlt
    refine stepFlow_zero hp hk hh ?_
    intro e he hes
    have := hmin h (List.mem_filter.2 ⟨hh, by rw [decide_eq_true_eq]; exact ⟨hat, e, he, hes⟩⟩)
    linarith)
  rw [hp.hug_finish cw _ hy, dartOf_finish] at hym
  by_cases hA : ∃ z ∈ L, z.1 = y.2 ∧ (dartOf z).s = (dartOf d).s
  · obtain ⟨z, hz, hzp, hzs⟩ := hA
    obtain ⟨u, hu, hf⟩ := hin z hz hzp
    have huE := hL u hu
    have up : u.2 = y.2 := hf.2.2.1.trans hzp
    have uat : (dartOf u).s.at y.2 := by rw [← up]; exact dartOf_at_snd u
    have h1 := hmin (dartOf u).s (List.mem_filter.2 ⟨huE, by rw [decide_eq_true_eq]; exact ⟨uat, u, hu, rfl⟩⟩)
    by_cases hs : (dartOf u).s = (dartOf z).s
    · have := hf.alone hp hs (dartOf y).s hy (by rw [up]; exact dartOf_at_snd y)
      exact hnot u hu this.symm
    · have h2 := hf.2.2.2 (dartOf y).s hy (by rw [up]; exact dartOf_at_snd y) (by rw [hzs]; exact Ne.symm hgy)
      rw [up] at h2
      rw [hzs] at h2 hs
      have n1 : (dartOf u).s.ang y.2 ≠ (dartOf d).s.ang y.2 := fun c => hs (hp.ang_inj huE hgE uat hgat c)
      have n2 : (dartOf u).s.ang y.2 ≠ (dartOf y).s.ang y.2 :=
        fun c => hnot u hu (hp.ang_inj huE hy uat (dartOf_at_snd y) c)
      have n3 : (dartOf d).s.ang y.2 ≠ (dartOf y).s.ang y.2 :=
        fun c => hgy (hp.ang_inj hgE hy hgat (dartOf_at_snd y) c)
      have bu := hp.ang_bounds huE uat
      have bd := hp.ang_bounds hgE hgat
      have by' := hp.ang_bounds hy (dartOf_at_snd y)
      have hpi := Real.pi_pos
      unfold sw angleStep at h1 h2
      generalize (dartOf u).s.ang y.2 = U at *
      generalize (dartOf d).s.ang y.2 = G at *
      generalize (dartOf y).s.ang y.2 = Y at *
      cases cw <;> simp only [Bool.false_eq_true, if_false, if_true] at * <;>
        rcases lt_or_gt_of_ne n1 with c1 | c1 <;> rcases lt_or_gt_of_ne n2 with c2 | c2 <;>
        rcases lt_or_gt_of_ne n3 with c3 | c3 <;>
        (have d1 := not_lt.2 c1.le; have d2 := not_lt.2 c2.le; have d3 := not_lt.2 c3.le
         simp only [c1, c2, c3, d1, d2, d3, if_true, if_false] at h1 h2
         linarith)
  · have hd1 : d.1 ≠ y.2 := fun h => hA ⟨d, hd, h, rfl⟩
    have hd2 : d.2 = y.2 := by
      rcases dartOf_cases d with h | h <;> rcases hgat with h' | h'
      · exact absurd (by rw [h]; exact h') hd1
      · rw [h]; exact h'
      · rw [h]; exact h'
      · exact absurd (by rw [h]; exact h') hd1
    have hds : d.swap ∉ L := by
      intro h
      exact hA ⟨d.swap, h, hd2, (dartOf_swap (step_ne hp hgE)).1⟩
    have h1 := hug_far cw (stepFlow L) E (dartOf d)
    rw [stepFlow_flux hp hk hL hgE, hm d hd, hp.far_finish cw _ hgE, dartOf_finish, hd2,
      List.count_eq_one_of_mem hnd hd, List.count_eq_zero.2 hds] at h1
    cases cw
    · simp only [Bool.false_eq_true, if_false] at hw hym h1
      rw [hw, hym] at h1; unfold side at h1; simp at h1
    · simp only [if_true] at hw hym h1
      rw [← hw, hym] at h1; unfold side at h1; simp at h1

omit hp hk in
theorem chain_at {R : Pt × Pt → Pt × Pt → Prop} {D l1 l2 : List (Pt × Pt)} {x y : Pt × Pt} (h : D.IsChain R)
    (hD : D = l1 ++ x :: y :: l2) : R x y := by
  rw [hD] at h
  have := h.right_of_append
  simp only [List.isChain_cons_cons] at this
  exact this.1

omit hk in
/-- The inner value is the same along a whole walk around faces. -/
theorem FaceChain.const {cw : Bool} {D : List (Pt × Pt)} (h : FaceChain cw E D) {φ : Pt × Pt → Int} (hc : Closed φ E) :
    ∃ m, ∀ e ∈ D, hug cw φ E (dartOf e) = m := by
  rcases D with _ | ⟨x, D⟩
  · exact ⟨0, by simp⟩
  · refine ⟨hug cw φ E (dartOf x), ?_⟩
    refine steps_induct _ ?_ ?_
    · intro d hd; simp at hd; rw [hd]
    · intro pre e f post hD _ he
      rw [← he]
      exact ((chain_at h hD).hug_eq hp hc).symm

/-- No two vertices alternate on a walk around faces. -/
theorem faces_noninterleaved {cw : Bool} {D : List (Pt × Pt)} (h : FaceChain cw E D) (hnd : D.Nodup)
    (hE : ∀ e ∈ D, (dartOf e).s ∈ E) : NonInterleaved (D.map Prod.fst) := by
  intro p q hpq hs
  rw [List.sublist_map_iff] at hs
  obtain ⟨X, hX, hXe⟩ := hs
  obtain ⟨x1, x2, x3, x4, rfl, e1, e2, e3, e4⟩ : ∃ x1 x2 x3 x4 : Pt × Pt, X = [x1, x2, x3, x4] ∧ x1.1 = q ∧ x2.1 = p ∧ x3.1 = q ∧ x4.1 = p := by
    rcases X with _ | ⟨x1, _ | ⟨x2, _ | ⟨x3, _ | ⟨x4, _ | ⟨x5, X⟩⟩⟩⟩⟩ <;> simp at hXe
    exact ⟨x1, x2, x3, x4, rfl, hXe.1.symm, hXe.2.1.symm, hXe.2.2.1.symm, hXe.2.2.2.symm⟩
  rw [List.cons_sublist_iff] at hX
  obtain ⟨A, A', rfl, h1, hX⟩ := hX
  rw [List.cons_sublist_iff] at hX
  obtain ⟨B, B', rfl, h2, hX⟩ := hX
  rw [List.cons_sublist_iff] at hX
  obtain ⟨C, C', rfl, h3, hX⟩ := hX
  rw [List.singleton_sublist] at hX
  obtain ⟨a1, a2, rfl⟩ := List.append_of_mem h1
  obtain ⟨b1, b2, rfl⟩ := List.append_of_mem h2
  obtain ⟨c1, c2, rfl⟩ := List.append_of_mem h3
  obtain ⟨d1, d2, rfl⟩ := List.append_of_mem hX
  -- the closed part
  generalize hLd : x1 :: a2 ++ b1 ++ x2 :: b2 ++ c1 = L
  have hD : a1 ++ x1 :: a2 ++ (b1 ++ x2 :: b2 ++ (c1 ++ x3 :: c2 ++ (d1 ++ x4 :: d2))) =
      a1 ++ (L ++ (x3 :: (c2 ++ d1) ++ x4 :: d2)) := by rw [← hLd]; simp
  rw [hD] at h hnd hE
  have hLE : ∀ e ∈ L, (dartOf e).s ∈ E := fun e he => hE e (by simp [he])
  have hn2 := (List.nodup_append.1 hnd).2.1
  have hLn : L.Nodup := (List.nodup_append.1 hn2).1
  have hdis := (List.nodup_append.1 hn2).2.2
  have hx1 : L.head? = some x1 := by rw [← hLd]; rfl
  have hx2 : x2 ∈ L := by rw [← hLd]; simp
  have hc : Closed (stepFlow L) E := by
    refine stepFlow_closed hp hk hLE fun f => ?_
    have e : ∀ d : Pt × Pt, f d.1 - f d.2 = (f d.1 - f q) - (f d.2 - f q) := fun d => by ring
    simp only [e]
    refine telescope (fun d : Pt × Pt => f d.1 - f q) (fun d => f d.2 - f q) L ?_ ?_ ?_
    · intro l1 d d' l2 hl
      have := chain_at h (l1 := a1 ++ l1) (x := d) (y := d') (l2 := l2 ++ (x3 :: (c2 ++ d1) ++ x4 :: d2)) (by rw [hl]; simp)
      rw [this.2.2.1]
    · intro d hd
      rw [hx1] at hd
      simp at hd
      rw [← hd, e1]; ring
    · intro d hd
      obtain ⟨l, hl⟩ := List.getLast?_eq_some_iff.1 hd
      have := chain_at h (l1 := a1 ++ l) (x := d) (y := x3) (l2 := (c2 ++ d1) ++ x4 :: d2) (by rw [hl]; simp)
      rw [this.2.2.1, e3]; ring
  obtain ⟨m, hm⟩ := FaceChain.const hp h hc
  -- the step before the second visit of `p`
  obtain ⟨l, y, hly⟩ : ∃ l y, x3 :: (c2 ++ d1) = l ++ [y] :=
    ⟨_, _, (List.dropLast_append_getLast (by simp : x3 :: (c2 ++ d1) ≠ [])).symm⟩
  have hyx := chain_at h (l1 := a1 ++ L ++ l) (x := y) (y := x4) (l2 := d2) (by
    rw [hly]; simp)
  have hyD : y ∈ a1 ++ (L ++ (x3 :: (c2 ++ d1) ++ x4 :: d2)) := by rw [hly]; simp
  have hy2 : y.2 = p := hyx.2.2.1.trans e4
  refine no_cross hp hk (cw := cw) hLE hLn hc (m := m) (fun e he => hm e (by simp [he])) (y := y) hyx.1 ?_ (hm y hyD) ?_ hx2
    (by rw [e2, hy2])
  · intro hy
    exact hdis y hy y (by rw [hly]; simp) rfl
  · intro z hz hzp
    obtain ⟨l1, l2, hl⟩ := List.append_of_mem hz
    rcases List.eq_nil_or_concat l1 with rfl | ⟨l1', u, rfl⟩
    · rw [hl] at hx1
      simp at hx1
      rw [hx1, e1, hy2] at hzp
      exact absurd hzp.symm hpq
    · rw [List.concat_eq_append] at hl
      refine ⟨u, by rw [hl]; simp, ?_⟩
      exact chain_at h (l1 := a1 ++ l1') (x := u) (y := z) (l2 := l2 ++ (x3 :: (c2 ++ d1) ++ x4 :: d2)) (by rw [hl]; simp)

end
end IOverlay
