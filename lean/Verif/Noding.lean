/- One round of splitting: exact rounds node the edges. -/
import Verif.SplitLemmas

namespace IOverlay
open WindingCount
variable {C : Type}

theorem onSeg_symm {q : QPt} {a b : Pt} (h : onSeg q a b) : onSeg q b a := by
  obtain ⟨t, h0, h1, hx, hy⟩ := h
  exact ⟨1 - t, by linarith, by linarith, by rw [hx]; ring, by rw [hy]; ring⟩

theorem inSeg_symm {q : QPt} {a b : Pt} (h : inSeg q a b) : inSeg q b a := by
  obtain ⟨t, h0, h1, hx, hy⟩ := h
  exact ⟨1 - t, by linarith, by linarith, by rw [hx]; ring, by rw [hy]; ring⟩

theorem AllOnLine.symm {t o : XSeg} (h : AllOnLine t o) : AllOnLine o t :=
  ⟨h.2.2.1, h.2.2.2, h.1, h.2.1⟩

theorem AllOnLine.trans {s t u : XSeg} (ht : t.a ≠ t.b) (h : AllOnLine s t) (h' : AllOnLine t u) :
    AllOnLine s u := by
  have hab' : (t.b.y - t.a.y ≠ 0) ∨ (-(t.b.x - t.a.x) ≠ 0) := by rw [ne_eq, Pt.ext_iff'] at ht; omega
  have key : ∀ p : Pt, area2 t.a t.b p = 0 → (t.b.y - t.a.y) * p.x + -(t.b.x - t.a.x) * p.y =
      (t.b.y - t.a.y) * t.a.x - (t.b.x - t.a.x) * t.a.y := by
    intro p hp; unfold area2 at hp; linear_combination hp
  have a1 := key _ h.2.2.1
  have a2 := key _ h.2.2.2
  have a3 := key _ h'.1
  have a4 := key _ h'.2.1
  exact ⟨area2_of_line hab' a1 a2 a3, area2_of_line hab' a1 a2 a4, area2_of_line hab' a3 a4 a1,
    area2_of_line hab' a3 a4 a2⟩

/-- `p` is an end or a mark of edge number `i`. -/
def onChain (marks : List Mark) (i : Nat) (s : Seg C) (p : Pt) : Prop :=
  p = s.a ∨ p = s.b ∨ (⟨i, p⟩ : Mark) ∈ marks

section Round
variable {segs : List (Seg C)} {pairs : List EPair} {radius : Int}
  (hl : ∀ s ∈ segs, s.a < s.b) (hc : Covers pairs segs) (hr : 0 ≤ radius)
include hl hc hr

theorem pair_nondeg {p : EPair} (hp : p ∈ pairs) : p.ei.a ≠ p.ei.b ∧ p.ej.a ≠ p.ej.b := by
  obtain ⟨_, ⟨s, h1, e1⟩, ⟨t, h2, e2⟩⟩ := hc.sound p hp
  rw [e1, e2]
  exact ⟨Pt.ne_of_lt (hl s (List.mem_of_getElem? h1)), Pt.ne_of_lt (hl t (List.mem_of_getElem? h2))⟩

theorem roundMarks_ne {m : Mark} (hm : m ∈ (roundMarks radius pairs).1) :
    ∃ s, segs[m.index]? = some s ∧ m.point ≠ s.a ∧ m.point ≠ s.b := by
  unfold roundMarks at hm
  dsimp only at hm
  obtain ⟨p, hp, hm⟩ := List.mem_flatMap.1 hm
  obtain ⟨_, ⟨s, h1, e1⟩, ⟨t, h2, e2⟩⟩ := hc.sound p hp
  obtain ⟨n1, n2⟩ := pair_nondeg hl hc hr hp
  rcases crossMarks_ne n1 n2 hr hm with ⟨a, b, c⟩ | ⟨a, b, c⟩
  · exact ⟨s, by rw [a]; exact h1, by rw [e1] at b c; exact ⟨b, c⟩⟩
  · exact ⟨t, by rw [a]; exact h2, by rw [e2] at b c; exact ⟨b, c⟩⟩

variable (hf : (roundMarks radius pairs).2 = false)
include hf

theorem pair_exact {p : EPair} (hp : p ∈ pairs) : (crossMarks radius p).2 = false := by
  unfold roundMarks at hf
  dsimp only at hf
  rw [List.any_eq_false] at hf
  have := hf p hp
  simpa using this

/-- Provenance of a mark in an exact round. -/
theorem roundMarks_exact {m : Mark} (hm : m ∈ (roundMarks radius pairs).1) :
    ∃ s k t, segs[m.index]? = some s ∧ segs[k]? = some t ∧ k ≠ m.index ∧
      inSeg m.point.q s.a s.b ∧ onSeg m.point.q t.a t.b ∧
      (AllOnLine s.x t.x → m.point = t.a ∨ m.point = t.b) := by
  have hm' := hm
  unfold roundMarks at hm
  dsimp only at hm
  obtain ⟨p, hp, hm⟩ := List.mem_flatMap.1 hm
  obtain ⟨hij, ⟨s, h1, e1⟩, ⟨t, h2, e2⟩⟩ := hc.sound p hp
  obtain ⟨n1, n2⟩ := pair_nondeg hl hc hr hp
  have := crossMarks_exact n1 n2 hr (pair_exact hl hc hr hf hp) hm
  rw [e1, e2] at this
  rcases this with ⟨a, b, c, d⟩ | ⟨a, b, c, d⟩
  · exact ⟨s, p.j, t, by rw [a]; exact h1, h2, by omega, b, c, d⟩
  · exact ⟨t, p.i, s, by rw [a]; exact h2, h1, by omega, b, c, fun h => d h.symm⟩

/-- Non-collinear edges: a common point is on both chains. -/
theorem common_onChain {i j : Nat} {s t : Seg C} (hij : i ≠ j) (hi : segs[i]? = some s)
    (hj : segs[j]? = some t) (hn : ¬ AllOnLine s.x t.x) {q : QPt} (h1 : onSeg q s.a s.b)
    (h2 : onSeg q t.a t.b) :
    ∃ p : Pt, q = p.q ∧ onChain (roundMarks radius pairs).1 i s p ∧
      onChain (roundMarks radius pairs).1 j t p := by
  rcases Nat.lt_or_gt_of_ne hij with h | h
  · have hp := hc.complete i j s t h hi hj ⟨q, h1, h2⟩
    obtain ⟨n1, n2⟩ := pair_nondeg hl hc hr hp
    obtain ⟨pt, e, a, b⟩ := crossMarks_complete n1 n2 hr (pair_exact hl hc hr hf hp) hn h1 h2
    refine ⟨pt, e, ?_, ?_⟩
    · exact a.imp id (Or.imp id fun m => List.mem_flatMap.2 ⟨_, hp, m⟩)
    · exact b.imp id (Or.imp id fun m => List.mem_flatMap.2 ⟨_, hp, m⟩)
  · have hp := hc.complete j i t s h hj hi ⟨q, h2, h1⟩
    obtain ⟨n1, n2⟩ := pair_nondeg hl hc hr hp
    obtain ⟨pt, e, a, b⟩ := crossMarks_complete n1 n2 hr (pair_exact hl hc hr hf hp)
      (fun h => hn h.symm) h2 h1
    refine ⟨pt, e, ?_, ?_⟩
    · exact b.imp id (Or.imp id fun m => List.mem_flatMap.2 ⟨_, hp, m⟩)
    · exact a.imp id (Or.imp id fun m => List.mem_flatMap.2 ⟨_, hp, m⟩)

omit hf in
/-- Collinear edges: an end of one lying on the other is on its chain. -/
theorem end_onChain {i j : Nat} {s t : Seg C} (hij : i ≠ j) (hi : segs[i]? = some s)
    (hj : segs[j]? = some t) (hn : AllOnLine s.x t.x) {p : Pt} (he : p = s.a ∨ p = s.b)
    (h2 : onSeg p.q t.a t.b) : onChain (roundMarks radius pairs).1 j t p := by
  have hs : onSeg p.q s.a s.b := by
    rcases he with rfl | rfl
    · exact onSeg_left _ _
    · exact onSeg_right _ _
  rcases onSeg_cases h2 with h | h | h
  · exact Or.inl (Pt.q_inj h)
  · exact Or.inr (Or.inl (Pt.q_inj h))
  · right; right
    rcases Nat.lt_or_gt_of_ne hij with hlt | hlt
    · have hp := hc.complete i j s t hlt hi hj ⟨_, hs, h2⟩
      obtain ⟨n1, n2⟩ := pair_nondeg hl hc hr hp
      exact List.mem_flatMap.2 ⟨_, hp, (crossMarks_collinear n1 n2 hr hn _).2 (Or.inl ⟨rfl, he, h⟩)⟩
    · have hp := hc.complete j i t s hlt hj hi ⟨_, h2, hs⟩
      obtain ⟨n1, n2⟩ := pair_nondeg hl hc hr hp
      exact List.mem_flatMap.2 ⟨_, hp,
        (crossMarks_collinear n1 n2 hr hn.symm _).2 (Or.inr ⟨rfl, he, h⟩)⟩

/-- A chain point of one edge lying on another edge is a chain point of that edge too. -/
theorem chain_transfer {i j : Nat} {s t : Seg C} (hi : segs[i]? = some s) (hj : segs[j]? = some t)
    {p : Pt} (hp : onChain (roundMarks radius pairs).1 i s p) (h2 : onSeg p.q t.a t.b) :
    onChain (roundMarks radius pairs).1 j t p := by
  by_cases hij : i = j
  · subst hij
    rw [hi] at hj; cases hj; exact hp
  have common : ∀ {k : Nat} {u : Seg C}, k ≠ j → segs[k]? = some u → ¬ AllOnLine u.x t.x →
      onSeg p.q u.a u.b → onChain (roundMarks radius pairs).1 j t p := by
    intro k u hk hu hn hon
    obtain ⟨p', e, _, h⟩ := common_onChain hl hc hr hf hk hu hj hn hon h2
    rw [Pt.q_inj e]; exact h
  have ends : (p = s.a ∨ p = s.b) → onChain (roundMarks radius pairs).1 j t p := by
    intro he
    by_cases hn : AllOnLine s.x t.x
    · exact end_onChain hl hc hr hij hi hj hn he h2
    · refine common hij hi hn ?_
      rcases he with rfl | rfl
      · exact onSeg_left _ _
      · exact onSeg_right _ _
  rcases hp with h | h | h
  · exact ends (Or.inl h)
  · exact ends (Or.inr h)
  · obtain ⟨s', k, u, h3, h4, hk, h5, h6, h7⟩ := roundMarks_exact hl hc hr hf h
    dsimp only at h3 hk h5 h6 h7
    rw [hi] at h3; cases h3
    by_cases hst : AllOnLine s.x t.x
    · have tne : t.a ≠ t.b := Pt.ne_of_lt (hl t (List.mem_of_getElem? hj))
      by_cases hkj : k = j
      · subst hkj
        rw [hj] at h4; cases h4
        rcases h7 hst with e | e
        · exact Or.inl e
        · exact Or.inr (Or.inl e)
      · by_cases hut : AllOnLine u.x t.x
        · have hsu : AllOnLine s.x u.x := hst.trans tne hut.symm
          exact end_onChain hl hc hr hkj h4 hj hut (h7 hsu) h2
        · exact common hkj h4 hut h6
    · exact common hij hi hst h5.on

/-! pieces -/

omit hl hc hr hf in
theorem chainSegs_consec [WindingCount C] (c : C) (b p : Pt) (l : List Pt)
    (h : (p :: (l ++ [b])).Pairwise (· < ·)) {e : Seg C} (he : e ∈ chainSegs c b p l) :
    (e.a ∈ p :: (l ++ [b])) ∧ (e.b ∈ p :: (l ++ [b])) ∧ e.a < e.b ∧ e.c = c ∧
      ∀ w ∈ p :: (l ++ [b]), ¬ (e.a < w ∧ w < e.b) := by
  induction l generalizing p with
  | nil =>
    simp only [List.nil_append, List.pairwise_cons, List.mem_singleton, forall_eq] at h
    simp only [chainSegs, List.mem_singleton] at he
    have hlt := h.1
    subst he
    simp only [createValidate, if_pos hlt]
    refine ⟨by simp, by simp, hlt, trivial, ?_⟩
    intro w hw
    simp only [List.nil_append, List.mem_cons, List.not_mem_nil, or_false] at hw
    rcases hw with rfl | rfl
    · exact fun h => Pt.lt_irrefl _ h.1
    · exact fun h => Pt.lt_irrefl _ h.2
  | cons m rest ih =>
    obtain ⟨h1, h2⟩ := List.pairwise_cons.1 h
    obtain ⟨h3, _⟩ := List.pairwise_cons.1 h2
    rw [chainSegs] at he
    rcases List.mem_cons.1 he with rfl | he
    · have hlt : p < m := h1 m (by simp)
      simp only [createValidate, if_pos hlt]
      refine ⟨by simp, by simp, hlt, trivial, ?_⟩
      intro w hw hh
      rcases List.mem_cons.1 hw with rfl | hw
      · exact Pt.lt_irrefl _ hh.1
      · rcases List.mem_cons.1 hw with rfl | hw
        · exact Pt.lt_irrefl _ hh.2
        · exact Pt.lt_asymm hh.2 (h3 w hw)
    · obtain ⟨a1, a2, a3, a4, a5⟩ := ih m h2 he
      refine ⟨List.mem_cons_of_mem _ a1, List.mem_cons_of_mem _ a2, a3, a4, ?_⟩
      intro w hw hh
      rcases List.mem_cons.1 hw with rfl | hw
      · exact Pt.lt_asymm hh.1 (h1 _ a1)
      · exact a5 w hw hh

/-- A piece of edge `i` in an exact round: its ends are chain points with no chain point between. -/
theorem splitSeg_piece [WindingCount C] {i : Nat} {s : Seg C} (hi : segs[i]? = some s) {e : Seg C}
    (he : e ∈ splitSeg (roundMarks radius pairs).1 i s) :
    e.c = s.c ∧ e.a < e.b ∧
    onChain (roundMarks radius pairs).1 i s e.a ∧ onChain (roundMarks radius pairs).1 i s e.b ∧
    ∀ w, onChain (roundMarks radius pairs).1 i s w → ¬ (e.a < w ∧ w < e.b) := by
  have hs := hl s (List.mem_of_getElem? hi)
  have hex : ∀ p ∈ pointsOf i (roundMarks radius pairs).1, inSeg p.q s.a s.b := by
    intro p hp
    rw [mem_pointsOf] at hp
    obtain ⟨s', k, u, h3, _, _, h5, _⟩ := roundMarks_exact hl hc hr hf hp
    rw [hi] at h3; cases h3; exact h5
  have hsorted := pointsOf_sorted i (roundMarks radius pairs).1
  have hmem : ∀ w, onChain (roundMarks radius pairs).1 i s w ↔
      w ∈ s.a :: (pointsOf i (roundMarks radius pairs).1 ++ [s.b]) := by
    intro w
    unfold onChain
    rw [List.mem_cons, List.mem_append, List.mem_singleton, mem_pointsOf]
    tauto
  have hchain : (s.a :: (pointsOf i (roundMarks radius pairs).1 ++ [s.b])).Pairwise (· < ·) := by
    rw [List.pairwise_cons, List.pairwise_append]
    refine ⟨?_, hsorted, List.pairwise_singleton _ _, ?_⟩
    · intro w hw
      rcases List.mem_append.1 hw with h | h
      · exact (inSeg_lt hs (hex w h)).1
      · simp at h; subst h; exact hs
    · intro w hw b hb
      simp at hb; subst hb
      exact (inSeg_lt hs (hex w hw)).2
  have heq : splitSeg (roundMarks radius pairs).1 i s =
      chainSegs s.c s.b s.a (pointsOf i (roundMarks radius pairs).1) := by
    unfold splitSeg
    split
    · next h => rw [h, chainSegs, createValidate, if_pos hs]
    · next m rest h => rw [h] at hsorted hex ⊢; rw [subSort_exact _ hs _ hsorted hex]
  rw [heq] at he
  obtain ⟨a1, a2, a3, a4, a5⟩ := chainSegs_consec _ _ _ _ hchain he
  exact ⟨a4, a3, (hmem _).2 a1, (hmem _).2 a2, fun w hw => a5 w ((hmem w).1 hw)⟩

/-- Chain points lie on the edge (exact round). -/
theorem onChain_onSeg {i : Nat} {s : Seg C} (hi : segs[i]? = some s) {p : Pt}
    (hp : onChain (roundMarks radius pairs).1 i s p) : onSeg p.q s.a s.b := by
  rcases hp with rfl | rfl | h
  · exact onSeg_left _ _
  · exact onSeg_right _ _
  · obtain ⟨s', k, u, h3, _, _, h5, _⟩ := roundMarks_exact hl hc hr hf h
    rw [hi] at h3; cases h3; exact h5.on

omit hl hc hr hf in
theorem onSeg_sub {a b u v : Pt} {q : QPt} (hu : onSeg u.q a b) (hv : onSeg v.q a b)
    (hq : onSeg q u v) : onSeg q a b := by
  obtain ⟨α, a0, a1, hax, hay⟩ := hu
  obtain ⟨β, b0, b1, hbx, hby⟩ := hv
  obtain ⟨t, t0, t1, hx, hy⟩ := hq
  simp only [Pt.q] at hax hay hbx hby
  refine ⟨α + t * (β - α), ?_, ?_, ?_, ?_⟩
  · nlinarith
  · nlinarith
  · rw [hx, hax, hbx]; ring
  · rw [hy, hay, hby]; ring

omit hl hc hr hf in
/-- Two different edges on one line, neither having an end strictly inside the other. -/
theorem meet_of_line {a b u v u' v' : Pt} (hab : a < b) (hu : area2 a b u = 0) (hv : area2 a b v = 0)
    (hu' : area2 a b u' = 0) (hv' : area2 a b v' = 0) (huv : u < v) (huv' : u' < v')
    (n1 : ¬ inSeg u'.q u v) (n2 : ¬ inSeg v'.q u v) (n3 : ¬ inSeg u.q u' v') (n4 : ¬ inSeg v.q u' v')
    (hne : ¬ (u = u' ∧ v = v')) : MeetAtEnds u v u' v' := by
  have hne' := Pt.ne_of_lt hab
  obtain ⟨α, hα⟩ := exists_param (p := u.q) hne' (by rw [qarea_q, hu]; rfl)
  obtain ⟨β, hβ⟩ := exists_param (p := v.q) hne' (by rw [qarea_q, hv]; rfl)
  obtain ⟨γ, hγ⟩ := exists_param (p := u'.q) hne' (by rw [qarea_q, hu']; rfl)
  obtain ⟨δ, hδ⟩ := exists_param (p := v'.q) hne' (by rw [qarea_q, hv']; rfl)
  have hαβ := (param_lt hab hα hβ).1 huv
  have hγδ := (param_lt hab hγ hδ).1 huv'
  have eqp : ∀ {p p' : QPt} {t : ℚ}, atParam p a b t → atParam p' a b t → p = p' := by
    intro p p' t h h'
    exact QPt.ext' (h.1.trans h'.1.symm) (h.2.trans h'.2.symm)
  have mk : ∀ {x y w : Pt} {ξ η ω : ℚ}, atParam x.q a b ξ → atParam y.q a b η → atParam w.q a b ω →
      ξ < ω → ω < η → inSeg w.q x y := by
    intro x y w ξ η ω hx hy hw h1 h2
    have hpos : 0 < η - ξ := by linarith
    refine ⟨(ω - ξ) / (η - ξ), div_pos (by linarith) hpos, by rw [div_lt_one hpos]; linarith, ?_, ?_⟩
    · have e1 := hx.1; have e2 := hy.1; have e3 := hw.1
      simp only [Pt.q] at e1 e2 e3 ⊢
      rw [e1, e2, e3]; field_simp; ring
    · have e1 := hx.2; have e2 := hy.2; have e3 := hw.2
      simp only [Pt.q] at e1 e2 e3 ⊢
      rw [e1, e2, e3]; field_simp; ring
  have m1 : γ ≤ α ∨ β ≤ γ := by
    by_contra h; simp only [not_or, not_le] at h; exact n1 (mk hα hβ hγ h.1 h.2)
  have m2 : δ ≤ α ∨ β ≤ δ := by
    by_contra h; simp only [not_or, not_le] at h; exact n2 (mk hα hβ hδ h.1 h.2)
  have m3 : α ≤ γ ∨ δ ≤ α := by
    by_contra h; simp only [not_or, not_le] at h; exact n3 (mk hγ hδ hα h.1 h.2)
  have m4 : β ≤ γ ∨ δ ≤ β := by
    by_contra h; simp only [not_or, not_le] at h; exact n4 (mk hγ hδ hβ h.1 h.2)
  have m5 : ¬ (α = γ ∧ β = δ) := by
    rintro ⟨rfl, rfl⟩
    exact hne ⟨Pt.q_inj (eqp hα hγ), Pt.q_inj (eqp hβ hδ)⟩
  intro q h1 h2
  obtain ⟨t, t0, t1, hx, hy⟩ := h1
  obtain ⟨t', t0', t1', hx', hy'⟩ := h2
  have hq : atParam q a b (α + t * (β - α)) := by
    have e1 := hα.1; have e2 := hβ.1; have e3 := hα.2; have e4 := hβ.2
    simp only [Pt.q] at e1 e2 e3 e4
    exact ⟨by rw [hx, e1, e2]; ring, by rw [hy, e3, e4]; ring⟩
  have hq' : atParam q a b (γ + t' * (δ - γ)) := by
    have e1 := hγ.1; have e2 := hδ.1; have e3 := hγ.2; have e4 := hδ.2
    simp only [Pt.q] at e1 e2 e3 e4
    exact ⟨by rw [hx', e1, e2]; ring, by rw [hy', e3, e4]; ring⟩
  have he := atParam_inj hne' hq hq'
  rw [← he] at hq'
  generalize hθ : α + t * (β - α) = θ at *
  have b1 : α ≤ θ := by nlinarith
  have b2 : θ ≤ β := by nlinarith
  have b3 : γ ≤ θ := by nlinarith
  have b4 : θ ≤ δ := by nlinarith
  rcases lt_trichotomy α γ with h | h | h
  · have : γ = θ := by rcases m1 with m | m <;> linarith
    have : β = θ := by rcases m1 with m | m <;> linarith
    subst this; subst γ
    exact ⟨Or.inr (eqp hq hβ), Or.inl (eqp hq hγ)⟩
  · exfalso
    rcases lt_trichotomy β δ with h' | h' | h'
    · rcases m4 with m | m <;> linarith
    · exact m5 ⟨h, h'⟩
    · rcases m2 with m | m <;> linarith
  · have : α = θ := by rcases m3 with m | m <;> linarith
    have : δ = θ := by rcases m3 with m | m <;> linarith
    subst this; subst α
    exact ⟨Or.inl (eqp hq hα), Or.inr (eqp hq hδ)⟩

/-- The pieces of an exact round meet properly. -/
theorem pieces_meet [WindingCount C] {i j : Nat} {s t : Seg C} (hi : segs[i]? = some s)
    (hj : segs[j]? = some t) {e f : Seg C} (he : e ∈ splitSeg (roundMarks radius pairs).1 i s)
    (hfm : f ∈ splitSeg (roundMarks radius pairs).1 j t) (hne : ¬ (e.a = f.a ∧ e.b = f.b)) :
    MeetAtEnds e.a e.b f.a f.b := by
  obtain ⟨_, e1, e2, e3, e4⟩ := splitSeg_piece hl hc hr hf hi he
  obtain ⟨_, f1, f2, f3, f4⟩ := splitSeg_piece hl hc hr hf hj hfm
  have ea := onChain_onSeg hl hc hr hf hi e2
  have eb := onChain_onSeg hl hc hr hf hi e3
  have fa := onChain_onSeg hl hc hr hf hj f2
  have fb := onChain_onSeg hl hc hr hf hj f3
  have endOf : ∀ {k : Nat} {g u : Seg C} {p : Pt}, g.a < g.b →
      (∀ w, onChain (roundMarks radius pairs).1 k u w → ¬ (g.a < w ∧ w < g.b)) →
      onChain (roundMarks radius pairs).1 k u p → onSeg p.q g.a g.b → p = g.a ∨ p = g.b := by
    intro k g u p hg hcl hp hon
    rcases onSeg_cases hon with h | h | h
    · exact Or.inl (Pt.q_inj h)
    · exact Or.inr (Pt.q_inj h)
    · exact absurd (inSeg_lt hg h) (hcl p hp)
  have sab := hl s (List.mem_of_getElem? hi)
  have tab := hl t (List.mem_of_getElem? hj)
  by_cases hcol : i = j ∨ AllOnLine s.x t.x
  · have line : ∀ p : Pt, onSeg p.q t.a t.b → area2 s.a s.b p = 0 := by
      intro p hp
      rcases hcol with rfl | hcol
      · rw [hi] at hj; cases hj; exact area2_of_inSeg hp
      · obtain ⟨τ, _, _, hτ⟩ := hp
        have hq := qarea_param (a := s.a) (b := s.b) hτ
        have h1 : area2 s.a s.b t.a = 0 := hcol.1
        have h2 : area2 s.a s.b t.b = 0 := hcol.2.1
        rw [qarea_q, h1, h2] at hq
        push_cast at hq
        have hq : (area2 s.a s.b p : ℚ) = 0 := by linear_combination hq
        exact_mod_cast hq
    refine meet_of_line sab (area2_of_inSeg ea) (area2_of_inSeg eb) (line _ fa) (line _ fb) e1 f1
      ?_ ?_ ?_ ?_ hne
    · intro h
      exact e4 _ (chain_transfer hl hc hr hf hj hi f2 (onSeg_sub ea eb h.on)) (inSeg_lt e1 h)
    · intro h
      exact e4 _ (chain_transfer hl hc hr hf hj hi f3 (onSeg_sub ea eb h.on)) (inSeg_lt e1 h)
    · intro h
      exact f4 _ (chain_transfer hl hc hr hf hi hj e2 (onSeg_sub fa fb h.on)) (inSeg_lt f1 h)
    · intro h
      exact f4 _ (chain_transfer hl hc hr hf hi hj e3 (onSeg_sub fa fb h.on)) (inSeg_lt f1 h)
  · simp only [not_or] at hcol
    intro q h1 h2
    obtain ⟨p, rfl, p1, p2⟩ := common_onChain hl hc hr hf hcol.1 hi hj hcol.2 (onSeg_sub ea eb h1)
      (onSeg_sub fa fb h2)
    refine ⟨?_, ?_⟩
    · rcases endOf e1 e4 p1 h1 with h | h
      · exact Or.inl (by rw [h])
      · exact Or.inr (by rw [h])
    · rcases endOf f1 f4 p2 h2 with h | h
      · exact Or.inl (by rw [h])
      · exact Or.inr (by rw [h])

end Round

/-- Noded edge sets: different edges meet only at common ends. -/
def Noded (l : List (Seg C)) : Prop :=
  l.Pairwise fun e f => MeetAtEnds e.a e.b f.a f.b

theorem applyMarks_noded [WindingCount C] {segs : List (Seg C)} {pairs : List EPair} {radius : Int}
    (hl : ∀ s ∈ segs, s.a < s.b) (hc : Covers pairs segs) (hr : 0 ≤ radius)
    (hf : (roundMarks radius pairs).2 = false) :
    Noded (applyMarks (roundMarks radius pairs).1 segs) := by
  have hsorted := mergeIfNeeded_sorted _ (sortSegs_sorted (splitAll (roundMarks radius pairs).1 0 segs))
  have hedges := mergeIfNeeded_edges (sortSegs (splitAll (roundMarks radius pairs).1 0 segs))
  refine List.Pairwise.imp_of_mem ?_ hsorted
  intro e f he hf' hlt
  obtain ⟨e', h1, h2, h3⟩ := hedges e he
  obtain ⟨f', g1, g2, g3⟩ := hedges f hf'
  rw [(sortSegs_perm _).mem_iff, mem_splitAll] at h1 g1
  obtain ⟨i, s, a1, a2⟩ := h1
  obtain ⟨j, t, b1, b2⟩ := g1
  rw [Nat.zero_add] at a2 b2
  rw [h2, h3, g2, g3]
  refine pieces_meet hl hc hr hf a1 b1 a2 b2 ?_
  rintro ⟨c1, c2⟩
  have e1 : e.a = f.a := by rw [h2, g2, c1]
  have e2 : e.b = f.b := by rw [h3, g3, c2]
  unfold Seg.lt at hlt
  rw [e1, e2] at hlt
  rcases hlt with h | ⟨_, h⟩ <;> exact Pt.lt_irrefl _ h

/-- Without any mark the edges are already noded. -/
theorem noded_of_no_marks {segs : List (Seg C)} {pairs : List EPair} {radius : Int}
    (hsort : segs.Pairwise Seg.lt) (hl : ∀ s ∈ segs, s.a < s.b) (hc : Covers pairs segs) (hr : 0 ≤ radius)
    (hm : (roundMarks radius pairs).1 = []) : Noded segs := by
  have hf : (roundMarks radius pairs).2 = false := by
    by_contra h
    rw [Bool.not_eq_false] at h
    unfold roundMarks at h hm
    dsimp only at h hm
    rw [List.any_eq_true] at h
    obtain ⟨p, hp, h⟩ := h
    have hnil : (crossMarks radius p).1 = [] := List.flatMap_eq_nil_iff.1 hm p hp
    obtain ⟨n1, n2⟩ := pair_nondeg hl hc hr hp
    have sp := crossMarks_spec p n1 n2 hr
    generalize crossMarks radius p = r at sp h hnil
    cases sp <;> simp_all
  unfold Noded
  rw [List.pairwise_iff_getElem]
  intro i j hi hj hij
  have ei : segs[i]? = some segs[i] := List.getElem?_eq_getElem hi
  have ej : segs[j]? = some segs[j] := List.getElem?_eq_getElem hj
  have hs := List.pairwise_iff_getElem.1 hsort i j hi hj hij
  intro q h1 h2
  have hchain : ∀ (k : Nat) (s : Seg C) (p : Pt), onChain (roundMarks radius pairs).1 k s p →
      p = s.a ∨ p = s.b := by
    intro k s p hp
    rw [hm] at hp
    rcases hp with h | h | h
    · exact Or.inl h
    · exact Or.inr h
    · simp at h
  have l1 := hl _ (List.getElem_mem hi)
  have l2 := hl _ (List.getElem_mem hj)
  by_cases hcol : AllOnLine segs[i].x segs[j].x
  · have hne : ¬ (segs[i].a = segs[j].a ∧ segs[i].b = segs[j].b) := by
      rintro ⟨e1, e2⟩
      unfold Seg.lt at hs
      rw [e1, e2] at hs
      rcases hs with h | ⟨_, h⟩ <;> exact Pt.lt_irrefl _ h
    have nin : ∀ {k m : Nat} {s t : Seg C}, k ≠ m → segs[k]? = some s → segs[m]? = some t →
        AllOnLine s.x t.x → t.a < t.b → ∀ p, (p = s.a ∨ p = s.b) → ¬ inSeg p.q t.a t.b := by
      intro k m s t hkm hk hm' hcol ht p hp hin
      obtain ⟨g1, g2⟩ := inSeg_lt ht hin
      rcases hchain m t p (end_onChain hl hc hr hkm hk hm' hcol hp hin.on) with h | h
      · rw [h] at g1; exact Pt.lt_irrefl _ g1
      · rw [h] at g2; exact Pt.lt_irrefl _ g2
    exact meet_of_line l1 (area2_self_left _ _) (area2_self_right _ _) hcol.1 hcol.2.1 l1 l2
      (nin (by omega) ej ei hcol.symm l1 _ (Or.inl rfl)) (nin (by omega) ej ei hcol.symm l1 _ (Or.inr rfl))
      (nin (by omega) ei ej hcol l2 _ (Or.inl rfl)) (nin (by omega) ei ej hcol l2 _ (Or.inr rfl)) hne q h1 h2
  · obtain ⟨p, rfl, p1, p2⟩ := common_onChain hl hc hr hf (by omega) ei ej hcol h1 h2
    refine ⟨?_, ?_⟩
    · rcases hchain _ _ _ p1 with h | h
      · exact Or.inl (by rw [h])
      · exact Or.inr (by rw [h])
    · rcases hchain _ _ _ p2 with h | h
      · exact Or.inl (by rw [h])
      · exact Or.inr (by rw [h])

end IOverlay
