/-
Every vertex of a noded, balanced edge list has an even number of edges separating result from
non-result. Used for C40 and for the walk of the extraction (C21, C22).
-/
import Verif.Parity

namespace IOverlay
variable {C : Type}

theorem onSeg_a {a b : Pt} : onSeg a.q a b := ⟨0, le_refl _, zero_le_one, by simp [Pt.q], by simp [Pt.q]⟩
theorem onSeg_b {a b : Pt} : onSeg b.q a b := ⟨1, zero_le_one, le_refl _, by simp [Pt.q], by simp [Pt.q]⟩

/-- A vertex of the list lies only on edges ending there. -/
theorem Planar.through {segs : List (Seg C)} (hp : Planar segs) {f g : Seg C} (hf : f ∈ segs) (hg : g ∈ segs)
    {p : Pt} (hv : p = g.a ∨ p = g.b) (h : onSeg p.q f.a f.b) : f.a = p ∨ f.b = p := by
  by_cases hne : f = g
  · subst hne; rcases hv with h | h <;> simp [h]
  · have hg' : onSeg p.q g.a g.b := by
      rcases hv with rfl | rfl
      · exact onSeg_a
      · exact onSeg_b
    rcases (hp.meet hf hg hne _ h hg').1 with h | h
    · exact Or.inl (Pt.q_inj h).symm
    · exact Or.inr (Pt.q_inj h).symm

/-- Two vertical edges with the same upper end are the same. -/
theorem Planar.down_unique {segs : List (Seg C)} (hp : Planar segs) {f s : Seg C} (hf : f ∈ segs)
    (hs : s ∈ segs) (hb : f.b = s.b) (vf : f.a.x = f.b.x) (vs : s.a.x = s.b.x) : f = s := by
  by_contra hne
  have lf := hp.lt f hf
  have ls := hp.lt s hs
  rw [Pt.lt_def] at lf ls
  have h1 : f.a.y + 1 ≤ f.b.y := by omega
  have h2 : s.a.y + 1 ≤ f.b.y := by rw [hb]; omega
  have h1' : (f.a.y:ℚ) + 1 ≤ f.b.y := by exact_mod_cast h1
  have h2' : (s.a.y:ℚ) + 1 ≤ f.b.y := by exact_mod_cast h2
  have q1 : onSeg ⟨f.a.x, f.b.y - 1/2⟩ f.a f.b :=
    onSeg_vert vf (by omega) (by linarith) (by linarith)
  have q2 : onSeg ⟨s.a.x, f.b.y - 1/2⟩ s.a s.b :=
    onSeg_vert vs (by omega) (by linarith) (by rw [← hb]; linarith)
  have hx : s.a.x = f.a.x := by rw [vf, vs, hb]
  rw [hx] at q2
  rcases (hp.meet hf hs hne _ q1 q2).1 with h | h <;> simp only [Pt.q, QPt.mk.injEq] at h
  · linarith [h.2]
  · linarith [h.2]

section around
variable (p : Pt)

def BR (f : Seg C) : Prop := f.spans p.x ∧ ht f p.x < p.y
def BL (f : Seg C) : Prop := f.spans (p.x - 1) ∧ ht f p.x < p.y
def RF (f : Seg C) : Prop := f.a = p ∧ f.a.x < f.b.x
def LF (f : Seg C) : Prop := f.b = p ∧ f.a.x < f.b.x
def UV (f : Seg C) : Prop := f.a = p ∧ f.a.x = f.b.x
def DV (f : Seg C) : Prop := f.b = p ∧ f.a.x = f.b.x

variable {p} {segs : List (Seg C)} (hp : Planar segs) {g : Seg C} (hg : g ∈ segs) (hv : p = g.a ∨ p = g.b)
include hp

theorem around_balance {φ : C → Int} (hc : Closed φ segs) :
    wsum φ (fun f => ind (DV p f)) segs + wsum φ (fun f => ind (LF p f)) segs =
    wsum φ (fun f => ind (RF p f)) segs + wsum φ (fun f => ind (UV p f)) segs := by
  rw [← wsum_add, ← wsum_add]
  refine wsum_potential hc (fun v => ind (v = p)) fun f hf => ?_
  have hlt := ab_x_le (hp.lt f hf)
  have hne : f.a ≠ f.b := fun h => absurd (hp.lt f hf) (by rw [h]; exact Pt.lt_irrefl _)
  have e1 : ind (DV p f) + ind (LF p f) = ind (f.b = p) := by
    by_cases h : f.b = p
    · by_cases hx : f.a.x = f.b.x
      · rw [ind_true ⟨h, hx⟩, ind_false (fun q => by have := q.2; omega), ind_true h]; rfl
      · rw [ind_true (P := LF p f) ⟨h, by omega⟩, ind_false (fun q => hx q.2), ind_true h]; rfl
    · rw [ind_false (fun q => h q.1), ind_false (fun q => h q.1), ind_false h]; rfl
  have e2 : ind (RF p f) + ind (UV p f) = ind (f.a = p) := by
    by_cases h : f.a = p
    · by_cases hx : f.a.x = f.b.x
      · rw [ind_true (P := UV p f) ⟨h, hx⟩, ind_false (fun q => by have := q.2; omega), ind_true h]; rfl
      · rw [ind_true (P := RF p f) ⟨h, by omega⟩, ind_false (fun q => hx q.2), ind_true h]; rfl
    · rw [ind_false (fun q => h q.1), ind_false (fun q => h q.1), ind_false h]; rfl
  rw [e1, e2]; ring

include hg hv

theorem around_left {φ : C → Int} (hc : Closed φ segs) :
    wsum φ (fun f => ind (BL p f)) segs =
    wsum φ (fun f => ind (BR p f)) segs + wsum φ (fun f => ind (DV p f)) segs := by
  rw [← wsum_add]
  refine wsum_potential hc (fun v => ind (v.x = p.x ∧ (v.y:ℚ) < p.y)) fun f hf => ?_
  have hlt := hp.lt f hf
  rw [Pt.lt_def] at hlt
  have hxle := ab_x_le (hp.lt f hf)
  have hne : f.a ≠ f.b := fun h => absurd (hp.lt f hf) (by rw [h]; exact Pt.lt_irrefl _)
  by_cases ha : f.a = p
  · have i1 : ¬ BL p f := by rintro ⟨⟨h, _⟩, _⟩; rw [ha] at h; omega
    have i2 : ¬ BR p f := by rintro ⟨_, h⟩; rw [← ha, ht_a] at h; exact lt_irrefl _ h
    have i3 : ¬ DV p f := by rintro ⟨h, _⟩; exact hne (ha.trans h.symm)
    have i4 : ¬ (f.b.x = p.x ∧ (f.b.y:ℚ) < p.y) := by
      rintro ⟨h1, h2⟩
      have : f.b.y < p.y := by exact_mod_cast h2
      rw [← ha] at h1 this; omega
    have i5 : ¬ (f.a.x = p.x ∧ (f.a.y:ℚ) < p.y) := by
      rintro ⟨h1, h2⟩; rw [ha] at h2; exact lt_irrefl _ h2
    rw [ind_false i1, ind_false i2, ind_false i3, ind_false i4, ind_false i5]; rfl
  · by_cases hb : f.b = p
    · have i2 : ¬ BR p f := by rintro ⟨⟨_, h⟩, _⟩; rw [hb] at h; omega
      have i4 : ¬ (f.b.x = p.x ∧ (f.b.y:ℚ) < p.y) := by
        rintro ⟨h1, h2⟩; rw [hb] at h2; exact lt_irrefl _ h2
      by_cases hx : f.a.x = f.b.x
      · have i1 : ¬ BL p f := by rintro ⟨⟨h, h'⟩, _⟩; omega
        have i5 : f.a.x = p.x ∧ (f.a.y:ℚ) < p.y := by
          refine ⟨by rw [← hb]; exact hx, ?_⟩
          have : f.a.y < p.y := by rw [← hb]; omega
          exact_mod_cast this
        rw [ind_false i1, ind_false i2, ind_true (P := DV p f) ⟨hb, hx⟩, ind_false i4, ind_true i5]; rfl
      · have i1 : ¬ BL p f := by
          rintro ⟨_, h⟩
          have hxl : f.a.x < f.b.x := by omega
          rw [← hb, ht_b hxl] at h; exact lt_irrefl _ h
        have i3 : ¬ DV p f := fun h => hx h.2
        have i5 : ¬ (f.a.x = p.x ∧ (f.a.y:ℚ) < p.y) := by
          rintro ⟨h1, h2⟩; rw [← hb] at h1; exact hx h1
        rw [ind_false i1, ind_false i2, ind_false i3, ind_false i4, ind_false i5]; rfl
    · have i3 : ¬ DV p f := fun h => hb h.1
      rw [ind_false i3, add_zero]
      refine hp.cross_ind hf p.x p.y ?_ _ _ (fun _ => Iff.rfl) (fun _ => Iff.rfl)
      intro h
      rcases hp.through hf hg hv h with h | h
      · exact ha h
      · exact hb h

end around

section even
variable {segs : List (Seg CountBool)} (hp : Planar segs) (hs : Closed CountBool.subj segs)
  (hc : Closed CountBool.clip segs) (rule : FillRule) (r : OverlayRule)

open Classical in
theorem par_single (hd : segs.Nodup) (P : Seg CountBool → Prop) (B : Int × Int)
    (hu : ∀ f ∈ segs, ∀ s ∈ segs, P f → P s → f = s) (hB : ∀ s ∈ segs, P s → botP segs s = B) :
    par (keptB rule r segs) (segs.filter fun f => decide (P f)) =
      xor (ruleAt rule r B) (ruleAt rule r (B + psum P segs)) := by
  have hm : ∀ f, f ∈ segs.filter (fun f => decide (P f)) ↔ f ∈ segs ∧ P f := by
    intro f; rw [List.mem_filter, decide_eq_true_eq]
  have hd' := hd.filter fun f => decide (P f)
  unfold psum
  rcases hl : segs.filter (fun f => decide (P f)) with _ | ⟨s, l⟩
  · simp
  · rw [hl] at hm hd'
    have h0 : l = [] := by
      rcases l with _ | ⟨t, l⟩
      · rfl
      · have h1 := (hm s).1 (by simp)
        have h2 := (hm t).1 (by simp)
        have := hu s h1.1 t h2.1 h1.2 h2.2
        subst this
        simp at hd'
    subst h0
    have h1 := (hm s).1 (by simp)
    have := hB s h1.1 h1.2
    simp [keptB, this]

include hp hs hc

open Classical in
theorem even_kept (p : Pt) :
    par (keptB rule r segs) (segs.filter fun f => decide (f.a = p ∨ f.b = p)) = false := by
  by_cases hvx : ∃ g ∈ segs, p = g.a ∨ p = g.b
  swap
  · have : segs.filter (fun f => decide (f.a = p ∨ f.b = p)) = [] := by
      rw [List.filter_eq_nil_iff]
      intro f hf h
      rw [decide_eq_true_eq] at h
      exact hvx ⟨f, hf, by rcases h with h | h <;> simp [h]⟩
    rw [this]; rfl
  obtain ⟨g, hg, hv⟩ := hvx
  -- right fan
  have tR := column_tele hp hs hc rule r p.x (RF p) (BR p)
    (by rintro f _ ⟨rfl, h⟩; exact ⟨le_refl _, h⟩)
    (by
      rintro s hm ⟨rfl, hx⟩ f hf
      constructor
      · rintro ⟨sf, h⟩
        rcases (hp.low_iff hf hm hx sf).1 h with h1 | ⟨h1, h2⟩
        · exact Or.inl ⟨sf, h1⟩
        · exact Or.inr ⟨⟨h1, sf.x⟩, h⟩
      · rintro (⟨sf, h⟩ | ⟨⟨h1, h2⟩, h⟩)
        · exact ⟨sf, (hp.low_iff hf hm hx sf).2 (Or.inl h)⟩
        · exact ⟨⟨by rw [h1], by rw [← h1]; exact h2⟩, h⟩)
    (by
      rintro f _ ⟨_, h⟩ ⟨rfl, _⟩
      rw [ht_a] at h; exact lt_irrefl _ h)
  -- left fan
  have tL := column_tele hp hs hc rule r (p.x - 1) (LF p) (BL p)
    (by rintro f _ ⟨rfl, h⟩; exact ⟨by omega, by omega⟩)
    (by
      rintro s hm ⟨rfl, hx⟩ f hf
      have ss : s.spans (s.b.x - 1) := ⟨by omega, by omega⟩
      constructor
      · rintro ⟨sf, h⟩
        have h1 := hp.of_mid hf hm sf ss (x := s.b.x) (by push_cast; linarith) (by push_cast; linarith) h
        rw [ht_b hx] at h1
        rcases lt_or_eq_of_le h1 with h2 | h2
        · exact Or.inl ⟨sf, h2⟩
        · right
          refine ⟨⟨?_, sf.x⟩, h⟩
          obtain ⟨sf1, sf2⟩ := sf
          by_cases hlt : s.b.x < f.b.x
          · exact absurd h2 (hp.vertex_ne hf hm (Or.inr rfl) (by omega) hlt)
          · have e : f.b.x = s.b.x := by omega
            rw [← e, ht_b (by omega)] at h2
            exact Pt.ext_iff'.2 ⟨e, by exact_mod_cast h2⟩
      · rintro (⟨sf, h⟩ | ⟨⟨h1, h2⟩, h⟩)
        · refine ⟨sf, ?_⟩
          rw [← ht_b hx] at h
          exact hp.mid_of hf hm sf ss (x := s.b.x) (by push_cast; linarith) (by push_cast; linarith) h
        · exact ⟨⟨by rw [← h1]; omega, by rw [← h1]; omega⟩, h⟩)
    (by
      rintro f _ ⟨_, h⟩ ⟨rfl, hx⟩
      rw [ht_b hx] at h; exact lt_irrefl _ h)
  -- vertical up
  have tU := par_single rule r hp.nodup (UV p) (psum (BR p) segs + psum (RF p) segs)
    (by
      rintro f hf s hm ⟨rfl, h2⟩ ⟨h3, h4⟩
      by_contra hne
      apply hp.fan_ne hf hm hne h3.symm
      have e1 : f.b.x = s.b.x := by rw [← h2, ← h4, h3]
      have e2 : s.a.x = s.b.x := h4
      unfold area2; rw [e1, e2]; ring)
    (by
      rintro s hm ⟨rfl, h2⟩
      rw [← psum_or (P := BR s.a) (Q := RF s.a) (by
        rintro f _ ⟨_, h⟩ ⟨h1, _⟩
        rw [← h1, ht_a] at h; exact lt_irrefl _ h), psum_eq]
      have key : ∀ f ∈ segs, ((f.spans s.a.x ∧ (ht f s.a.x < s.a.y ∨ (f.a = s.a ∧ 0 < area2 s.a s.b f.b)))
          ↔ (BR s.a f ∨ RF s.a f)) := by
        intro f hf
        constructor
        · rintro ⟨sf, h | ⟨h, _⟩⟩
          · exact Or.inl ⟨sf, h⟩
          · exact Or.inr ⟨h, sf.x⟩
        · rintro (⟨sf, h⟩ | ⟨h1, h3⟩)
          · exact ⟨sf, Or.inl h⟩
          · refine ⟨⟨by rw [h1], by rw [← h1]; exact h3⟩, Or.inr ⟨h1, ?_⟩⟩
            have hl := hp.lt s hm
            rw [Pt.lt_def] at hl
            have e1 : area2 s.a s.b f.b = (s.b.y - s.a.y) * (f.b.x - s.a.x) := by
              unfold area2; rw [← h2]; ring
            rw [e1]
            rw [h1] at h3
            exact mul_pos (by omega) (by omega)
      unfold botP botW
      rw [wsum_congr CountBool.subj fun f hf => ind_congr (key f hf),
        wsum_congr CountBool.clip fun f hf => ind_congr (key f hf)])
  -- vertical down
  have tD := par_single rule r hp.nodup (DV p) (psum (BR p) segs)
    (by
      rintro f hf s hm ⟨h1, h2⟩ ⟨h3, h4⟩
      exact hp.down_unique hf hm (h1.trans h3.symm) h2 h4)
    (by
      rintro s hm ⟨rfl, h2⟩
      rw [psum_eq]
      have hl := hp.lt s hm
      rw [Pt.lt_def] at hl
      have hy : s.a.y < s.b.y := by omega
      have hyq : (s.a.y:ℚ) < s.b.y := by exact_mod_cast hy
      have key : ∀ f ∈ segs, ((f.spans s.a.x ∧ (ht f s.a.x < s.a.y ∨ (f.a = s.a ∧ 0 < area2 s.a s.b f.b)))
          ↔ BR s.b f) := by
        intro f hf
        unfold BR
        rw [← h2]
        constructor
        · rintro ⟨sf, h | ⟨h, _⟩⟩
          · exact ⟨sf, by linarith⟩
          · exact ⟨sf, by rw [← h, ht_a, h]; exact hyq⟩
        · rintro ⟨sf, h⟩
          refine ⟨sf, ?_⟩
          by_cases hlow : ht f s.a.x < s.a.y
          · exact Or.inl hlow
          · right
            push Not at hlow
            have hne : f ≠ s := by rintro rfl; have := sf.x; omega
            have b := sf.bounds
            have o1 := onSeg_ht sf.x (x := s.a.x) b.1 (by linarith [b.2])
            have o2 := onSeg_vert h2 hy hlow h.le
            have hm' := hp.meet hf hm hne _ o1 o2
            have ea : (⟨s.a.x, ht f s.a.x⟩ : QPt) = s.a.q := by
              rcases hm'.2 with h' | h'
              · exact h'
              · simp only [Pt.q, QPt.mk.injEq] at h'; linarith [h'.2]
            have fa : f.a = s.a := by
              rcases hm'.1 with h' | h'
              · exact Pt.q_inj (h'.symm.trans ea)
              · simp only [Pt.q, QPt.mk.injEq] at h'; linarith [h'.1, b.2]
            refine ⟨fa, ?_⟩
            have e1 : area2 s.a s.b f.b = (s.b.y - s.a.y) * (f.b.x - s.a.x) := by
              unfold area2; rw [← h2]; ring
            rw [e1]
            have := sf.2
            exact mul_pos (by omega) (by omega)
      unfold botP botW
      rw [wsum_congr CountBool.subj fun f hf => ind_congr (key f hf),
        wsum_congr CountBool.clip fun f hf => ind_congr (key f hf)])
  -- relations
  have rel1 : psum (BL p) segs = psum (BR p) segs + psum (DV p) segs := by
    rw [psum_eq, psum_eq, psum_eq, around_left hp hg hv hs, around_left hp hg hv hc]; rfl
  have rel2 : psum (DV p) segs + psum (LF p) segs = psum (RF p) segs + psum (UV p) segs := by
    rw [psum_eq, psum_eq, psum_eq, psum_eq]
    exact Prod.ext (around_balance hp hs) (around_balance hp hc)
  -- splitting the star
  have split : par (keptB rule r segs) (segs.filter fun f => decide (f.a = p ∨ f.b = p)) =
      xor (xor (par (keptB rule r segs) (segs.filter fun f => decide (RF p f)))
        (par (keptB rule r segs) (segs.filter fun f => decide (LF p f))))
      (xor (par (keptB rule r segs) (segs.filter fun f => decide (UV p f)))
        (par (keptB rule r segs) (segs.filter fun f => decide (DV p f)))) := by
    have : ∀ l : List (Seg CountBool), (∀ f ∈ l, f.a < f.b) → ∀ k : Seg CountBool → Bool,
        par k (l.filter fun f => decide (f.a = p ∨ f.b = p)) =
        xor (xor (par k (l.filter fun f => decide (RF p f))) (par k (l.filter fun f => decide (LF p f))))
        (xor (par k (l.filter fun f => decide (UV p f))) (par k (l.filter fun f => decide (DV p f)))) := by
      intro l hl k
      induction l with
      | nil => rfl
      | cons f l ih =>
        have hlt := hl f (by simp)
        have hx := ab_x_le hlt
        have hne : f.a ≠ f.b := fun h => absurd hlt (by rw [h]; exact Pt.lt_irrefl _)
        have ih := ih fun g hg => hl g (List.mem_cons_of_mem _ hg)
        simp only [par_filter, par_cons] at ih ⊢
        rw [ih]
        by_cases ha : f.a = p
        · have hb : ¬ f.b = p := fun h => hne (ha.trans h.symm)
          by_cases hv : f.a.x = f.b.x
          · have : ¬ f.a.x < f.b.x := by omega
            simp only [RF, LF, UV, DV, ha, hb, decide_true, decide_false, true_or, false_and, true_and]
            rw [ha] at hv this
            simp only [hv, this, decide_true, decide_false, Bool.true_and, Bool.false_and]
            cases k f <;> simp
          · have : f.a.x < f.b.x := by omega
            simp only [RF, LF, UV, DV, ha, hb, decide_true, decide_false, true_or, false_and, true_and]
            rw [ha] at hv this
            simp only [hv, this, decide_true, decide_false, Bool.true_and, Bool.false_and]
            cases k f <;> simp
        · by_cases hb : f.b = p
          · by_cases hv : f.a.x = f.b.x
            · have : ¬ f.a.x < f.b.x := by omega
              simp only [RF, LF, UV, DV, ha, hb, decide_true, decide_false, or_true, false_and, true_and]
              rw [hb] at hv this
              simp only [hv, this, decide_true, decide_false, Bool.true_and, Bool.false_and]
              cases k f <;> simp
            · have : f.a.x < f.b.x := by omega
              simp only [RF, LF, UV, DV, ha, hb, decide_true, decide_false, or_true, false_and, true_and]
              rw [hb] at hv this
              simp only [hv, this, decide_true, decide_false, Bool.true_and, Bool.false_and]
              cases k f <;> simp
          · simp [RF, LF, UV, DV, ha, hb]
    exact this segs hp.lt _
  have e1 : psum (BL p) segs + psum (LF p) segs = psum (BR p) segs + psum (RF p) segs + psum (UV p) segs := by
    rw [rel1, add_assoc, rel2, add_assoc]
  rw [split, tR, tL, tU, tD, e1, rel1]
  generalize ruleAt rule r (psum (BR p) segs) = b1
  generalize ruleAt rule r (psum (BR p) segs + psum (RF p) segs) = b2
  generalize ruleAt rule r (psum (BR p) segs + psum (DV p) segs) = b3
  generalize ruleAt rule r (psum (BR p) segs + psum (RF p) segs + psum (UV p) segs) = b4
  cases b1 <;> cases b2 <;> cases b3 <;> cases b4 <;> rfl

end even

end IOverlay
