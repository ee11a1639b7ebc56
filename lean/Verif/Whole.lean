/-
When every crossing of the given edges is a whole-number point, nothing is rounded.
-/
import Verif.Props.Split
import Verif.Props.CrossPoint
import Verif.Props.Bounds
import Verif.Corners

namespace IOverlay
variable {C : Type}

/-! ### specification -/

/-- Two of the edges that cross - have a common point inside both and are not on one line - cross in a point with whole
coordinates. -/
def WholeCrossings (es : List (Pt × Pt)) : Prop :=
  ∀ e ∈ es, ∀ f ∈ es, (area2 e.1 e.2 f.1 ≠ 0 ∨ area2 e.1 e.2 f.2 ≠ 0) →
    ∀ q : QPt, inSeg q e.1 e.2 → inSeg q f.1 f.2 → ∃ p : Pt, q = p.q

/-! ### points on a line -/

theorem area2_line {a b c d : Pt} (hab : a ≠ b) (h1 : area2 a b c = 0) (h2 : area2 a b d = 0) : area2 a c d = 0 := by
  have := (all_line hab h1 h2).1
  unfold area2 at *
  linear_combination this

theorem area2_flip (a b c : Pt) : area2 a b c = - area2 b a c := by unfold area2; ring

/-- Three points on one line. -/
theorem area2_on_line {a b x y z : Pt} (hab : a ≠ b) (hx : area2 a b x = 0) (hy : area2 a b y = 0) (hz : area2 a b z = 0) :
    area2 x y z = 0 := by
  by_cases h : a = x
  · rw [← h]; exact area2_line hab hy hz
  · refine area2_line (a := x) (b := a) (Ne.symm h) ?_ ?_
    · rw [area2_flip, area2_line hab hx hy]; rfl
    · rw [area2_flip, area2_line hab hx hz]; rfl

/-- Of three points on a line, the first and third are joined through the second. -/
theorem onSeg_through {p0 p1 p : Pt} (h : area2 p0 p1 p = 0) {q : QPt} (hq : onSeg q p0 p) :
    onSeg q p0 p1 ∨ onSeg q p1 p := by
  by_cases h01 : p0 = p1
  · subst h01; exact Or.inr hq
  · obtain ⟨s, hs⟩ := exists_param h01 (p := p.q) (by rw [qarea_q, h]; rfl)
    obtain ⟨t, t0, t1, ht⟩ := hq
    obtain ⟨sx, sy⟩ := hs
    obtain ⟨tx, ty⟩ := ht
    simp only [Pt.q] at sx sy
    have hx : q.x = p0.x + (t * s) * (p1.x - p0.x) := by rw [tx, sx]; ring
    have hy : q.y = p0.y + (t * s) * (p1.y - p0.y) := by rw [ty, sy]; ring
    by_cases h0 : t * s < 0
    · right
      have hs0 : s < 0 := by
        by_contra hc
        have := mul_nonneg t0 (not_lt.1 hc)
        linarith
      have hd : 0 < 1 - s := by linarith
      refine ⟨(1 - t * s) / (1 - s), by apply div_nonneg <;> linarith, ?_, ?_, ?_⟩
      · rw [div_le_one hd]
        nlinarith
      · rw [hx, sx]; field_simp; ring
      · rw [hy, sy]; field_simp; ring
    · by_cases h1 : t * s ≤ 1
      · exact Or.inl ⟨t * s, not_lt.1 h0, h1, hx, hy⟩
      · right
        have hs1 : 1 < s := by
          by_contra hc
          have h3 := not_lt.1 hc
          have : t * s ≤ 1 := by nlinarith [mul_nonneg t0 (sub_nonneg.2 h3)]
          exact h1 this
        have hd : 0 < s - 1 := by linarith
        refine ⟨(t * s - 1) / (s - 1), by apply div_nonneg <;> linarith, ?_, ?_, ?_⟩
        · rw [div_le_one hd]
          nlinarith
        · rw [hx, sx]; field_simp; ring
        · rw [hy, sy]; field_simp; ring

theorem onSeg_self {q : QPt} {p : Pt} (h : onSeg q p p) : q = p.q := by
  obtain ⟨t, _, _, h⟩ := h
  apply QPt.ext'
  · rw [h.1]; simp [Pt.q]
  · rw [h.2]; simp [Pt.q]

/-! ### registered edges run along the given ones -/

/-- Every point of the segment lies on one of the edges; if it is not whole, then inside an edge on the line of the
segment. -/
def Along (E : List (Pt × Pt)) (a b : Pt) : Prop :=
  ∀ q, onSeg q a b → ((∃ p : Pt, q = p.q) ∧ ∃ e ∈ E, onSeg q e.1 e.2) ∨ ∃ e ∈ E, inSeg q e.1 e.2 ∧ area2 a b e.1 = 0 ∧ area2 a b e.2 = 0

theorem Along.edge {E : List (Pt × Pt)} {a b : Pt} (h : (a, b) ∈ E) : Along E a b := by
  intro q hq
  rcases onSeg_cases hq with h1 | h1 | h1
  · exact Or.inl ⟨⟨a, h1⟩, _, h, hq⟩
  · exact Or.inl ⟨⟨b, h1⟩, _, h, hq⟩
  · exact Or.inr ⟨_, h, h1, by unfold area2; ring, by unfold area2; ring⟩

theorem Along.on {E : List (Pt × Pt)} {a b : Pt} (h : Along E a b) {q : QPt} (hq : onSeg q a b) :
    ∃ e ∈ E, onSeg q e.1 e.2 := by
  rcases h q hq with h | ⟨e, h1, h2, -⟩
  · exact h.2
  · exact ⟨e, h1, h2.on⟩

theorem Along.refl {E : List (Pt × Pt)} {a b : Pt} (h : Along E a b) : Along E a a := by
  intro q hq
  have e := onSeg_self hq
  refine Or.inl ⟨⟨a, e⟩, h.on ?_⟩
  exact ⟨0, le_refl _, zero_le_one, by rw [e]; simp [Pt.q], by rw [e]; simp [Pt.q]⟩

theorem Along.symm {E : List (Pt × Pt)} {a b : Pt} (h : Along E a b) : Along E b a := by
  intro q hq
  rcases h q (onSeg_symm hq) with h | ⟨e, h1, h2, h3, h4⟩
  · exact Or.inl h
  · exact Or.inr ⟨e, h1, h2, by rw [area2_flip, h3]; rfl, by rw [area2_flip, h4]; rfl⟩

theorem Along.trans {E : List (Pt × Pt)} {a b c : Pt} (h1 : Along E a b) (h2 : Along E b c) (hl : isLine a b c = true) :
    Along E a c := by
  have hl' : area2 a b c = 0 := by simpa [isLine] using hl
  by_cases hab : a = b
  · subst hab; exact h2
  by_cases hbc : b = c
  · subst hbc; exact h1
  by_cases hac : a = c
  · subst hac; exact h1.refl
  intro q hq
  rcases onSeg_through hl' hq with h | h
  · rcases h1 q h with h | ⟨e, e1, e2, e3, e4⟩
    · exact Or.inl h
    · exact Or.inr ⟨e, e1, e2, area2_line hab hl' e3, area2_line hab hl' e4⟩
  · rcases h2 q h with h | ⟨e, e1, e2, e3, e4⟩
    · exact Or.inl h
    · refine Or.inr ⟨e, e1, e2, ?_, ?_⟩
      · have h0 : area2 c b a = 0 := by unfold area2 at *; linear_combination -hl'
        have h3 : area2 c b e.1 = 0 := by rw [area2_flip, e3]; rfl
        have := area2_line (Ne.symm hbc) h0 h3
        rw [area2_flip, this]; rfl
      · have h0 : area2 c b a = 0 := by unfold area2 at *; linear_combination -hl'
        have h3 : area2 c b e.2 = 0 := by rw [area2_flip, e4]; rfl
        have := area2_line (Ne.symm hbc) h0 h3
        rw [area2_flip, this]; rfl

theorem Along.withAB {E : List (Pt × Pt)} {a b : Pt} (h : Along E a b) (d i : C) :
    Along E (withAB a b d i).a (withAB a b d i).b := by
  unfold IOverlay.withAB
  split
  · exact h
  · exact h.symm

theorem mainLoop_along (d i : C) (E : List (Pt × Pt)) : ∀ (l : List Pt) (p0 p1 : Pt), Along E p0 p1 →
    (∀ e ∈ pathSteps (p1 :: l), e ∈ E) →
    (∀ s ∈ (mainLoop d i p0 p1 l).1, Along E s.a s.b) ∧
      Along E (mainLoop d i p0 p1 l).2.1 (mainLoop d i p0 p1 l).2.2 ∧
      (mainLoop d i p0 p1 l).2.2 = (p1 :: l).getLast (by simp) := by
  intro l
  induction l with
  | nil => intro p0 p1 h _; exact ⟨by simp [mainLoop], h, rfl⟩
  | cons p l ih =>
    intro p0 p1 h hE
    have hE' : ∀ e ∈ pathSteps (p :: l), e ∈ E := fun e he => hE e (by rw [pathSteps_cons_cons]; exact List.mem_cons_of_mem _ he)
    have he : Along E p1 p := Along.edge (hE _ (by rw [pathSteps_cons_cons]; simp))
    rw [List.getLast_cons (by simp)]
    unfold mainLoop
    split
    · rename_i hl
      exact ih p0 p (h.trans he hl) hE'
    · obtain ⟨h1, h2, h3⟩ := ih p1 p he hE'
      refine ⟨?_, h2, h3⟩
      intro s hs
      rcases List.mem_cons.1 hs with rfl | hs
      · exact h.withAB d i
      · exact h1 s hs

theorem skipLine_along (E : List (Pt × Pt)) : ∀ (l : List Pt) (p0 p1 : Pt), Along E p0 p1 →
    (∀ e ∈ pathSteps (p1 :: l), e ∈ E) →
    Along E p0 (skipLine p0 p1 l).1 ∧ Along E (skipLine p0 p1 l).1 (skipLine p0 p1 l).2.1 ∧
      (∀ e ∈ pathSteps ((skipLine p0 p1 l).2.1 :: (skipLine p0 p1 l).2.2), e ∈ E) ∧
      ((skipLine p0 p1 l).2.1 :: (skipLine p0 p1 l).2.2).getLast (by simp) = (p1 :: l).getLast (by simp) := by
  intro l
  induction l with
  | nil => intro p0 p1 h hE; exact ⟨h.refl, h, hE, rfl⟩
  | cons p l ih =>
    intro p0 p1 h hE
    have hE' : ∀ e ∈ pathSteps (p :: l), e ∈ E := fun e he => hE e (by rw [pathSteps_cons_cons]; exact List.mem_cons_of_mem _ he)
    have he : Along E p1 p := Along.edge (hE _ (by rw [pathSteps_cons_cons]; simp))
    rw [List.getLast_cons (a := p1) (l := p :: l) (by simp)]
    unfold skipLine
    by_cases hl : isLine p0 p1 p = true
    · simp only [hl, Bool.not_true, Bool.false_eq_true, if_false]
      exact ih p0 p (h.trans he hl) hE'
    · simp only [hl, Bool.not_false, if_true]
      exact ⟨h, he, hE', trivial⟩

theorem appendPath_along (d i : C) (pts : List Pt) (h : NotClosedExplicitly pts) :
    ∀ s ∈ appendPath d i pts, Along (polyEdges pts) s.a s.b := by
  rcases pts with _ | ⟨q0, _ | ⟨p1, rest⟩⟩
  · simp [appendPath]
  · simp [appendPath]
  have hE : ∀ e ∈ pathSteps (q0 :: p1 :: rest), e ∈ polyEdges (q0 :: p1 :: rest) := by
    intro e he
    rw [polyEdges_eq_pathSteps (p := q0) rfl, pathSteps_append (a := (p1 :: rest).getLast (by simp)) (by
      rw [List.getLast?_cons_cons, List.getLast?_eq_getLast_of_ne_nil (by simp)])]
    exact List.mem_append_left _ he
  have hlast : ((p1 :: rest).getLast (by simp), q0) ∈ polyEdges (q0 :: p1 :: rest) := by
    rw [polyEdges_eq_pathSteps (p := q0) rfl, pathSteps_append (a := (p1 :: rest).getLast (by simp)) (by
      rw [List.getLast?_cons_cons, List.getLast?_eq_getLast_of_ne_nil (by simp)])]
    simp
  have hne : (p1 :: rest).getLast (by simp) ≠ q0 := by
    have := h (by simp)
    rw [List.head?_cons, List.getLast?_cons_cons, List.getLast?_eq_getLast_of_ne_nil (by simp)] at this
    intro e
    exact this (by rw [e])
  generalize polyEdges (q0 :: p1 :: rest) = E at hE hlast
  have h0 : Along E q0 p1 := Along.edge (hE _ (by rw [pathSteps_cons_cons]; simp))
  have hE1 : ∀ e ∈ pathSteps (p1 :: rest), e ∈ E := fun e he => hE e (by rw [pathSteps_cons_cons]; exact List.mem_cons_of_mem _ he)
  obtain ⟨s1, s2, s3, s4⟩ := skipLine_along E rest q0 p1 h0 hE1
  obtain ⟨m1, m2, m3⟩ := mainLoop_along d i E _ _ _ s2 s3
  rw [s4] at m3
  intro s hs
  unfold appendPath at hs
  dsimp only at hs
  generalize (skipLine q0 p1 rest).1 = q1 at *
  generalize (skipLine q0 p1 rest).2.1 = c at *
  generalize (skipLine q0 p1 rest).2.2 = r at *
  rcases List.mem_append.1 hs with hs | hs
  · exact m1 s hs
  generalize (mainLoop d i q1 c r).2.1 = a0 at *
  generalize (mainLoop d i q1 c r).2.2 = a1 at *
  rw [← m3] at hlast hne
  have hl : Along E a1 q0 := Along.edge hlast
  unfold closePath at hs
  rcases e1 : isLine a0 a1 q0 <;> rcases e2 : isLine q0 q1 a1 <;> rw [e1, e2] at hs <;> dsimp only at hs
  · simp only [List.mem_cons, List.not_mem_nil, or_false] at hs
    rcases hs with rfl | rfl | rfl
    · exact m2.withAB d i
    · exact hl.withAB d i
    · exact s1.withAB d i
  · rcases List.mem_append.1 hs with hs | hs
    · rw [List.mem_singleton] at hs; subst hs
      exact m2.withAB d i
    · split at hs
      · rw [List.mem_singleton] at hs; subst hs
        refine (hl.trans s1 ?_).withAB d i
        simp only [isLine, beq_iff_eq] at e2 ⊢
        unfold area2 at *; linear_combination e2
      · simp at hs
  · rcases List.mem_append.1 hs with hs | hs
    · split at hs
      · rw [List.mem_singleton] at hs; subst hs
        exact (m2.trans hl e1).withAB d i
      · simp at hs
    · rw [List.mem_singleton] at hs; subst hs
      exact s1.withAB d i
  · split at hs
    · rw [List.mem_singleton] at hs; subst hs
      refine ((m2.trans hl e1).trans s1 ?_).withAB d i
      simp only [isLine, beq_iff_eq] at e1 e2 ⊢
      -- `a0` and `q1` on the line through `a1` and `q0`
      have h1 : area2 q0 a1 a0 = 0 := by unfold area2 at *; linear_combination -e1
      have h2 : area2 q0 a1 q1 = 0 := by unfold area2 at *; linear_combination -e2
      have := area2_line (Ne.symm hne) h1 h2
      rw [area2_flip, this]; rfl
    · simp at hs

theorem overlaySegments_along [WindingCount C] {subj clip : List (List Pt)} (hs : ∀ c ∈ subj, NotClosedExplicitly c)
    (hc : ∀ c ∈ clip, NotClosedExplicitly c) :
    ∀ s ∈ (overlaySegments subj clip : List (Seg C)), Along ((subj ++ clip).flatMap polyEdges) s.a s.b := by
  have up : ∀ {E E' : List (Pt × Pt)} {a b : Pt}, (∀ e ∈ E, e ∈ E') → Along E a b → Along E' a b := by
    intro E E' a b hE h q hq
    rcases h q hq with ⟨h, e, h1, h2⟩ | ⟨e, h1, h2⟩
    · exact Or.inl ⟨h, e, hE e h1, h2⟩
    · exact Or.inr ⟨e, hE e h1, h2⟩
  intro s hm
  unfold overlaySegments at hm
  rcases List.mem_append.1 hm with hm | hm <;> obtain ⟨c, hcm, hcs⟩ := List.mem_flatMap.1 hm
  · refine up ?_ (appendPath_along _ _ c (hs c hcm) s hcs)
    intro e he
    exact List.mem_flatMap.2 ⟨c, List.mem_append_left _ hcm, he⟩
  · refine up ?_ (appendPath_along _ _ c (hc c hcm) s hcs)
    intro e he
    exact List.mem_flatMap.2 ⟨c, List.mem_append_right _ hcm, he⟩

/-! ### the crossing tests -/

/-- The registered edges cross in whole points if the given ones do. -/
theorem whole_of_along {E : List (Pt × Pt)} (hw : WholeCrossings E) {a b c d : Pt} (hab : a ≠ b) (h1 : Along E a b)
    (hcd : c ≠ d) (h2 : Along E c d) (hn : ¬ (area2 a b c = 0 ∧ area2 a b d = 0)) {q : QPt} (q1 : onSeg q a b)
    (q2 : onSeg q c d) : ∃ p : Pt, q = p.q := by
  rcases h1 q q1 with h | ⟨e, he, e1, e2, e3⟩
  · exact h.1
  rcases h2 q q2 with h | ⟨f, hf, f1, f2, f3⟩
  · exact h.1
  by_cases hee : e.1 = e.2
  · refine ⟨e.1, ?_⟩
    have := e1.on
    rw [← hee] at this
    exact onSeg_self this
  by_cases hff : f.1 = f.2
  · refine ⟨f.1, ?_⟩
    have := f1.on
    rw [← hff] at this
    exact onSeg_self this
  refine hw e he f hf ?_ q e1 f1
  by_contra hc
  simp only [not_or, not_not] at hc
  apply hn
  -- `e` and `f` on one line, hence `a b` and `c d`
  obtain ⟨k1, k2⟩ := all_line hab e2 e3
  obtain ⟨k3, k4⟩ := all_line hcd f2 f3
  have l1 := all_line hee hc.1 hc.2
  have hc1 : area2 e.1 e.2 c = 0 := area2_on_line hff l1.1 l1.2 k3
  have hd1 : area2 e.1 e.2 d = 0 := area2_on_line hff l1.1 l1.2 k4
  exact ⟨area2_on_line hee k1 k2 hc1, area2_on_line hee k1 k2 hd1⟩

/-- The crossing test of two edges in range does not round when the crossing is a whole point. -/
theorem cross_not_round {t o : XSeg} (ht : t.a ≠ t.b) (ho : o.a ≠ o.b) (r1 : InRange t.a) (r2 : InRange t.b)
    (r3 : InRange o.a) (r4 : InRange o.b)
    (hw : ∀ q, ¬ (area2 t.a t.b o.a = 0 ∧ area2 t.a t.b o.b = 0) → onSeg q t.a t.b → onSeg q o.a o.b → ∃ p : Pt, q = p.q)
    (radius : Int) (i j : Nat) : (crossMarks radius ⟨i, j, t, o⟩).2 = false := by
  unfold crossMarks
  dsimp only
  have hs := cross_spec t o ht ho radius
  generalize cross t o radius = res at hs
  cases hs with
  | overlay h =>
    dsimp only
    split <;> rfl
  | none _ _ => rfl
  | otherEnd p _ _ _ => rfl
  | targetEnd p _ _ _ => rfl
  | middle h1 h2 =>
    obtain ⟨P, p1, p2, -, -, -, -, p7⟩ := C17_crossing_accuracy t o h1 h2 r1 r2 r3 r4
    obtain ⟨p, hp⟩ := hw P (by unfold Opp at h1; omega) p1.on p2.on
    have e := p7 p hp
    have l1 : isLine t.a p t.b = true := by
      have := area2_of_inSeg (p := p) (a := t.a) (b := t.b) (by rw [← hp]; exact p1.on)
      simp only [isLine, beq_iff_eq]
      unfold area2 at *; linear_combination -this
    have l2 : isLine o.a p o.b = true := by
      have := area2_of_inSeg (p := p) (a := o.a) (b := o.b) (by rw [← hp]; exact p2.on)
      simp only [isLine, beq_iff_eq]
      unfold area2 at *; linear_combination -this
    unfold middleCross
    rw [e]
    simp only [l1, l2, Bool.and_true, if_true]

theorem roundMarks_not_round {l : List (Seg C)} (hl : ∀ s ∈ l, s.a < s.b) (hr : ∀ s ∈ l, InRange s.a ∧ InRange s.b)
    {E : List (Pt × Pt)} (hw : WholeCrossings E) (hE : ∀ s ∈ l, Along E s.a s.b) (radius : Int) :
    (roundMarks radius (listPairs l)).2 = false := by
  unfold roundMarks
  rw [List.any_eq_false]
  intro p hp
  obtain ⟨k, m, s, t, -, -, -, hs, es, ht, et⟩ := listPairsFrom_sound 0 l p hp
  have ms := List.mem_of_getElem? hs
  have mt := List.mem_of_getElem? ht
  obtain ⟨i, j, ei, ej⟩ := p
  simp only at es et
  subst es et
  have := cross_not_round (t := s.x) (o := t.x) (Pt.ne_of_lt (hl s ms)) (Pt.ne_of_lt (hl t mt)) (hr s ms).1 (hr s ms).2
    (hr t mt).1 (hr t mt).2 (fun q hn q1 q2 => whole_of_along hw (Pt.ne_of_lt (hl s ms)) (hE s ms) (Pt.ne_of_lt (hl t mt))
      (hE t mt) hn q1 q2) radius i j
  rw [this]
  exact Bool.false_ne_true

/-- Nothing is rounded. -/
theorem overlay_not_round {subj clip : List (List Pt)} (hns : ∀ c ∈ subj, NotClosedExplicitly c)
    (hnc : ∀ c ∈ clip, NotClosedExplicitly c) (hin : ∀ c ∈ subj ++ clip, ∀ p ∈ c, InRange p)
    (hw : WholeCrossings ((subj ++ clip).flatMap polyEdges)) (radius : Int) :
    (roundMarks radius (listPairs (mergeIfNeeded (sortSegs (overlaySegments subj clip : List (Seg CountBool)))))).2 = false := by
  refine roundMarks_not_round (start_lt (overlaySegments_lt subj clip))
    (start_ends (overlaySegments_ends (P := InRange) hin)) hw ?_ radius
  intro s hs
  obtain ⟨e, h1, h2, h3⟩ := mergeIfNeeded_edges _ s hs
  rw [(sortSegs_perm _).mem_iff] at h1
  rw [h2, h3]
  exact overlaySegments_along hns hnc e h1

end IOverlay
