/-
C82: no vertex comes from nowhere. When the edges cross in whole points, every vertex of a result is a vertex that was given
or a point where two given edges cross.
-/
import Verif.Whole
import Verif.CanonRun
import Verif.Props.Total

namespace IOverlay

variable {C : Type} [WindingCount C]

/-! ### specification -/

/-- The point lies strictly inside two of the edges, which are not on one line. -/
def CrossingOf (E : List (Pt × Pt)) (p : Pt) : Prop :=
  ∃ e ∈ E, ∃ f ∈ E, (area2 e.1 e.2 f.1 ≠ 0 ∨ area2 e.1 e.2 f.2 ≠ 0) ∧ inSeg p.q e.1 e.2 ∧ inSeg p.q f.1 f.2

/-- A vertex of one of the contours, or a point in which two of their edges cross. -/
def GivenOrCrossing (cs : List (List Pt)) (p : Pt) : Prop :=
  (∃ c ∈ cs, p ∈ c) ∨ CrossingOf (cs.flatMap polyEdges) p

/-! ### registered edges -/

/-- Every point of the segment is an end of one of the edges, or lies inside an edge on the line of the segment. -/
def Course (E : List (Pt × Pt)) (a b : Pt) : Prop :=
  ∀ q, onSeg q a b → (∃ e ∈ E, q = e.1.q ∨ q = e.2.q) ∨ ∃ e ∈ E, inSeg q e.1 e.2 ∧ area2 a b e.1 = 0 ∧ area2 a b e.2 = 0

theorem Course.edge {E : List (Pt × Pt)} {a b : Pt} (h : (a, b) ∈ E) : Course E a b := by
  intro q hq
  rcases onSeg_cases hq with h1 | h1 | h1
  · exact Or.inl ⟨_, h, Or.inl h1⟩
  · exact Or.inl ⟨_, h, Or.inr h1⟩
  · exact Or.inr ⟨_, h, h1, by unfold area2; ring, by unfold area2; ring⟩

theorem Course.refl {E : List (Pt × Pt)} {a b : Pt} (h : Course E a b) : Course E a a := by
  intro q hq
  have e := onSeg_self hq
  rcases h q ⟨0, le_refl _, zero_le_one, by rw [e]; simp [Pt.q], by rw [e]; simp [Pt.q]⟩ with h | ⟨f, h1, h2, -⟩
  · exact Or.inl h
  · exact Or.inr ⟨f, h1, h2, by unfold area2; ring, by unfold area2; ring⟩

theorem Course.symm {E : List (Pt × Pt)} {a b : Pt} (h : Course E a b) : Course E b a := by
  intro q hq
  rcases h q (onSeg_symm hq) with h | ⟨e, h1, h2, h3, h4⟩
  · exact Or.inl h
  · exact Or.inr ⟨e, h1, h2, by rw [area2_flip, h3]; rfl, by rw [area2_flip, h4]; rfl⟩

theorem Course.trans {E : List (Pt × Pt)} {a b c : Pt} (h1 : Course E a b) (h2 : Course E b c) (hl : isLine a b c = true) :
    Course E a c := by
  have hl' : area2 a b c = 0 := by simpa [isLine] using hl
  by_cases hab : a = b
  · subst hab; exact h2
  by_cases hbc : b = c
  · subst hbc; exact h1
  by_cases hac : a = c
  · subst hac; exact h1.refl
  intro q hq
  rcases onSeg_through hl' hq with h | h
  · rcases h1 q h with h | ⟨e, e1, e2, e3, e4⟩
    · exact Or.inl h
    · exact Or.inr ⟨e, e1, e2, area2_line hab hl' e3, area2_line hab hl' e4⟩
  · rcases h2 q h with h | ⟨e, e1, e2, e3, e4⟩
    · exact Or.inl h
    · refine Or.inr ⟨e, e1, e2, ?_, ?_⟩
      · have h0 : area2 c b a = 0 := by unfold area2 at *; linear_combination -hl'
        have h3 : area2 c b e.1 = 0 := by rw [area2_flip, e3]; rfl
        have := area2_line (Ne.symm hbc) h0 h3
        rw [area2_flip, this]; rfl
      · have h0 : area2 c b a = 0 := by unfold area2 at *; linear_combination -hl'
        have h3 : area2 c b e.2 = 0 := by rw [area2_flip, e4]; rfl
        have := area2_line (Ne.symm hbc) h0 h3
        rw [area2_flip, this]; rfl

theorem Course.withAB {E : List (Pt × Pt)} {a b : Pt} (h : Course E a b) (d i : C) :
    Course E (withAB a b d i).a (withAB a b d i).b := by
  unfold IOverlay.withAB
  split
  · exact h
  · exact h.symm

theorem mainLoop_course (d i : C) (E : List (Pt × Pt)) : ∀ (l : List Pt) (p0 p1 : Pt), Course E p0 p1 →
    (∀ e ∈ pathSteps (p1 :: l), e ∈ E) →
    (∀ s ∈ (mainLoop d i p0 p1 l).1, Course E s.a s.b) ∧
      Course E (mainLoop d i p0 p1 l).2.1 (mainLoop d i p0 p1 l).2.2 ∧
      (mainLoop d i p0 p1 l).2.2 = (p1 :: l).getLast (by simp) := by
  intro l
  induction l with
  | nil => intro p0 p1 h _; exact ⟨by simp [mainLoop], h, rfl⟩
  | cons p l ih =>
    intro p0 p1 h hE
    have hE' : ∀ e ∈ pathSteps (p :: l), e ∈ E := fun e he => hE e (by rw [pathSteps_cons_cons]; exact List.mem_cons_of_mem _ he)
    have he : Course E p1 p := Course.edge (hE _ (by rw [pathSteps_cons_cons]; simp))
    rw [List.getLast_cons (by simp)]
    unfold mainLoop
    split
    · rename_i hl
      exact ih p0 p (h.trans he hl) hE'
    · obtain ⟨h1, h2, h3⟩ := ih p1 p he hE'
      refine ⟨?_, h2, h3⟩
      intro s hs
      rcases List.mem_cons.1 hs with rfl | hs
      · exact h.withAB d i
      · exact h1 s hs

theorem skipLine_course (E : List (Pt × Pt)) : ∀ (l : List Pt) (p0 p1 : Pt), Course E p0 p1 →
    (∀ e ∈ pathSteps (p1 :: l), e ∈ E) →
    Course E p0 (skipLine p0 p1 l).1 ∧ Course E (skipLine p0 p1 l).1 (skipLine p0 p1 l).2.1 ∧
      (∀ e ∈ pathSteps ((skipLine p0 p1 l).2.1 :: (skipLine p0 p1 l).2.2), e ∈ E) ∧
      ((skipLine p0 p1 l).2.1 :: (skipLine p0 p1 l).2.2).getLast (by simp) = (p1 :: l).getLast (by simp) := by
  intro l
  induction l with
  | nil => intro p0 p1 h hE; exact ⟨h.refl, h, hE, rfl⟩
  | cons p l ih =>
    intro p0 p1 h hE
    have hE' : ∀ e ∈ pathSteps (p :: l), e ∈ E := fun e he => hE e (by rw [pathSteps_cons_cons]; exact List.mem_cons_of_mem _ he)
    have he : Course E p1 p := Course.edge (hE _ (by rw [pathSteps_cons_cons]; simp))
    rw [List.getLast_cons (a := p1) (l := p :: l) (by simp)]
    unfold skipLine
    by_cases hl : isLine p0 p1 p = true
    · simp only [hl, Bool.not_true, Bool.false_eq_true, if_false]
      exact ih p0 p (h.trans he hl) hE'
    · simp only [hl, Bool.not_false, if_true]
      exact ⟨h, he, hE', trivial⟩

theorem appendPath_course (d i : C) (pts : List Pt) (h : NotClosedExplicitly pts) :
    ∀ s ∈ appendPath d i pts, Course (polyEdges pts) s.a s.b := by
  rcases pts with _ | ⟨q0, _ | ⟨p1, rest⟩⟩
  · simp [appendPath]
  · simp [appendPath]
  have hE : ∀ e ∈ pathSteps (q0 :: p1 :: rest), e ∈ polyEdges (q0 :: p1 :: rest) := by
    intro e he
    rw [polyEdges_eq_pathSteps (p := q0) rfl, pathSteps_append (a := (p1 :: rest).getLast (by simp)) (by
      rw [List.getLast?_cons_cons, List.getLast?_eq_getLast_of_ne_nil (by simp)])]
    exact List.mem_append_left _ he
  have hlast : ((p1 :: rest).getLast (by simp), q0) ∈ polyEdges (q0 :: p1 :: rest) := by
    rw [polyEdges_eq_pathSteps (p := q0) rfl, pathSteps_append (a := (p1 :: rest).getLast (by simp)) (by
      rw [List.getLast?_cons_cons, List.getLast?_eq_getLast_of_ne_nil (by simp)])]
    simp
  have hne : (p1 :: rest).getLast (by simp) ≠ q0 := by
    have := h (by simp)
    rw [List.head?_cons, List.getLast?_cons_cons, List.getLast?_eq_getLast_of_ne_nil (by simp)] at this
    intro e
    exact this (by rw [e])
  generalize polyEdges (q0 :: p1 :: rest) = E at hE hlast
  have h0 : Course E q0 p1 := Course.edge (hE _ (by rw [pathSteps_cons_cons]; simp))
  have hE1 : ∀ e ∈ pathSteps (p1 :: rest), e ∈ E := fun e he => hE e (by rw [pathSteps_cons_cons]; exact List.mem_cons_of_mem _ he)
  obtain ⟨s1, s2, s3, s4⟩ := skipLine_course E rest q0 p1 h0 hE1
  obtain ⟨m1, m2, m3⟩ := mainLoop_course d i E _ _ _ s2 s3
  rw [s4] at m3
  intro s hs
  unfold appendPath at hs
  dsimp only at hs
  generalize (skipLine q0 p1 rest).1 = q1 at *
  generalize (skipLine q0 p1 rest).2.1 = c at *
  generalize (skipLine q0 p1 rest).2.2 = r at *
  rcases List.mem_append.1 hs with hs | hs
  · exact m1 s hs
  generalize (mainLoop d i q1 c r).2.1 = a0 at *
  generalize (mainLoop d i q1 c r).2.2 = a1 at *
  rw [← m3] at hlast hne
  have hl : Course E a1 q0 := Course.edge hlast
  unfold closePath at hs
  rcases e1 : isLine a0 a1 q0 <;> rcases e2 : isLine q0 q1 a1 <;> rw [e1, e2] at hs <;> dsimp only at hs
  · simp only [List.mem_cons, List.not_mem_nil, or_false] at hs
    rcases hs with rfl | rfl | rfl
    · exact m2.withAB d i
    · exact hl.withAB d i
    · exact s1.withAB d i
  · rcases List.mem_append.1 hs with hs | hs
    · rw [List.mem_singleton] at hs; subst hs
      exact m2.withAB d i
    · split at hs
      · rw [List.mem_singleton] at hs; subst hs
        refine (hl.trans s1 ?_).withAB d i
        simp only [isLine, beq_iff_eq] at e2 ⊢
        unfold area2 at *; linear_combination e2
      · simp at hs
  · rcases List.mem_append.1 hs with hs | hs
    · split at hs
      · rw [List.mem_singleton] at hs; subst hs
        exact (m2.trans hl e1).withAB d i
      · simp at hs
    · rw [List.mem_singleton] at hs; subst hs
      exact s1.withAB d i
  · split at hs
    · rw [List.mem_singleton] at hs; subst hs
      refine ((m2.trans hl e1).trans s1 ?_).withAB d i
      simp only [isLine, beq_iff_eq] at e1 e2 ⊢
      -- `a0` and `q1` on the line through `a1` and `q0`
      have h1 : area2 q0 a1 a0 = 0 := by unfold area2 at *; linear_combination -e1
      have h2 : area2 q0 a1 q1 = 0 := by unfold area2 at *; linear_combination -e2
      have := area2_line (Ne.symm hne) h1 h2
      rw [area2_flip, this]; rfl
    · simp at hs

theorem overlaySegments_course {subj clip : List (List Pt)} (hs : ∀ c ∈ subj, NotClosedExplicitly c)
    (hc : ∀ c ∈ clip, NotClosedExplicitly c) :
    ∀ s ∈ (overlaySegments subj clip : List (Seg C)), Course ((subj ++ clip).flatMap polyEdges) s.a s.b := by
  have up : ∀ {E E' : List (Pt × Pt)} {a b : Pt}, (∀ e ∈ E, e ∈ E') → Course E a b → Course E' a b := by
    intro E E' a b hE h q hq
    rcases h q hq with ⟨e, h1, h2⟩ | ⟨e, h1, h2⟩
    · exact Or.inl ⟨e, hE e h1, h2⟩
    · exact Or.inr ⟨e, hE e h1, h2⟩
  intro s hm
  unfold overlaySegments at hm
  rcases List.mem_append.1 hm with hm | hm <;> obtain ⟨c, hcm, hcs⟩ := List.mem_flatMap.1 hm
  · refine up ?_ (appendPath_course _ _ c (hs c hcm) s hcs)
    intro e he
    exact List.mem_flatMap.2 ⟨c, List.mem_append_left _ hcm, he⟩
  · refine up ?_ (appendPath_course _ _ c (hc c hcm) s hcs)
    intro e he
    exact List.mem_flatMap.2 ⟨c, List.mem_append_right _ hcm, he⟩

/-! ### crossings of registered edges -/

/-- Where registered edges cross, there is a vertex, or two of the given edges cross. -/
theorem crossing_of_course {E : List (Pt × Pt)} {a b c d : Pt} (hab : a ≠ b) (h1 : Course E a b)
    (hcd : c ≠ d) (h2 : Course E c d) (hn : ¬ (area2 a b c = 0 ∧ area2 a b d = 0)) {p : Pt} (q1 : onSeg p.q a b)
    (q2 : onSeg p.q c d) : (∃ e ∈ E, p = e.1 ∨ p = e.2) ∨ CrossingOf E p := by
  have vert : ∀ {e : Pt × Pt}, e ∈ E → p.q = e.1.q ∨ p.q = e.2.q → (∃ e ∈ E, p = e.1 ∨ p = e.2) ∨ CrossingOf E p := by
    intro e he h
    exact Or.inl ⟨e, he, h.imp Pt.q_inj Pt.q_inj⟩
  rcases h1 _ q1 with ⟨e, he, h⟩ | ⟨e, he, e1, e2, e3⟩
  · exact vert he h
  rcases h2 _ q2 with ⟨e, he, h⟩ | ⟨f, hf, f1, f2, f3⟩
  · exact vert he h
  by_cases hee : e.1 = e.2
  · have := e1.on
    rw [← hee] at this
    exact vert he (Or.inl (onSeg_self this))
  by_cases hff : f.1 = f.2
  · have := f1.on
    rw [← hff] at this
    exact vert hf (Or.inl (onSeg_self this))
  refine Or.inr ⟨e, he, f, hf, ?_, e1, f1⟩
  by_contra hc
  simp only [not_or, not_not] at hc
  apply hn
  obtain ⟨k1, k2⟩ := all_line hab e2 e3
  obtain ⟨k3, k4⟩ := all_line hcd f2 f3
  have l1 := all_line hee hc.1 hc.2
  have hc1 : area2 e.1 e.2 c = 0 := area2_on_line hff l1.1 l1.2 k3
  have hd1 : area2 e.1 e.2 d = 0 := area2_on_line hff l1.1 l1.2 k4
  exact ⟨area2_on_line hee k1 k2 hc1, area2_on_line hee k1 k2 hd1⟩

/-- Ends of noded edges. -/
theorem noded_origin {st : Strategy} {sr : SnapRadius} {tree : TreeOracle CountBool} (ht : tree.Ok) {fuel : Nat}
    {subj clip : List (List Pt)} {segs : List (Seg CountBool)}
    (hf : FragOk st sr (overlaySegments subj clip : List (Seg CountBool)))
    (hns : ∀ c ∈ subj, NotClosedExplicitly c) (hnc : ∀ c ∈ clip, NotClosedExplicitly c)
    (hin : ∀ c ∈ subj ++ clip, ∀ p ∈ c, InRange p) (hw : WholeCrossings ((subj ++ clip).flatMap polyEdges))
    (he : nodedEdges st sr tree fuel (overlaySegments subj clip) = some segs) :
    ∀ s ∈ segs, GivenOrCrossing (subj ++ clip) s.a ∧ GivenOrCrossing (subj ++ clip) s.b := by
  have hx := overlay_not_round hns hnc hin hw sr.radius
  unfold nodedEdges at he
  split at he
  · rw [← Option.some.inj he]; simp
  obtain ⟨n, hn⟩ := (C38_strategies_agree_partial st .list sr tree ht subj clip hf (FragOk.list sr _) segs).1 ⟨fuel, he⟩
  clear he
  have h0 : ∀ s ∈ mergeIfNeeded (sortSegs (overlaySegments subj clip : List (Seg CountBool))),
      GivenOrCrossing (subj ++ clip) s.a ∧ GivenOrCrossing (subj ++ clip) s.b :=
    start_ends (P := GivenOrCrossing (subj ++ clip)) (overlaySegments_ends (P := GivenOrCrossing (subj ++ clip))
      fun c hc p hp => Or.inl ⟨c, hc, hp⟩)
  have hl := start_lt (overlaySegments_lt (C := CountBool) subj clip)
  have hcov := listPairs_covers _ (sorted_of_strict (start_sorted (overlaySegments subj clip : List (Seg CountBool)))) hl
  have hcourse : ∀ s ∈ mergeIfNeeded (sortSegs (overlaySegments subj clip : List (Seg CountBool))),
      Course ((subj ++ clip).flatMap polyEdges) s.a s.b := by
    intro s hs
    obtain ⟨e, h1, h2, h3⟩ := mergeIfNeeded_edges _ s hs
    rw [(sortSegs_perm _).mem_iff] at h1
    rw [h2, h3]
    exact overlaySegments_course hns hnc e h1
  unfold splitSegments at hn
  simp only [isListSplit, if_true] at hn
  generalize mergeIfNeeded (sortSegs (overlaySegments subj clip : List (Seg CountBool))) = l at *
  cases n with
  | zero => simp [splitLoop] at hn
  | succ n =>
    rw [splitLoop] at hn
    split at hn
    · simp only [Option.some.injEq] at hn; subst hn; exact h0
    · simp only [hx] at hn
      split at hn
      · simp only [Option.some.injEq] at hn; subst hn; exact h0
      · simp only [Bool.false_eq_true, if_false, Option.some.injEq] at hn
        subst hn
        refine applyMarks_ends _ _ _ h0 ?_
        intro m hm
        obtain ⟨s, k, t, h1, h2, -, h4, h5, h6⟩ := roundMarks_exact hl hcov sr.radius_nonneg hx hm
        have ms := List.mem_of_getElem? h1
        have mt := List.mem_of_getElem? h2
        by_cases hline : AllOnLine s.x t.x
        · rcases h6 hline with e | e
          · rw [e]; exact (h0 t mt).1
          · rw [e]; exact (h0 t mt).2
        · have hnl : ¬ (area2 s.a s.b t.a = 0 ∧ area2 s.a s.b t.b = 0) := by
            intro h
            have := all_line (Pt.ne_of_lt (hl s ms)) h.1 h.2
            exact hline ⟨h.1, h.2, this.1, this.2⟩
          rcases crossing_of_course (Pt.ne_of_lt (hl s ms)) (hcourse s ms) (Pt.ne_of_lt (hl t mt)) (hcourse t mt) hnl h4.on h5
            with ⟨e, hem, h⟩ | h
          · obtain ⟨c, hc, hec⟩ := List.mem_flatMap.1 hem
            obtain ⟨m1, m2⟩ := polyEdges_mem hec
            rcases h with h | h
            · exact Or.inl ⟨c, hc, by rw [h]; exact m1⟩
            · exact Or.inl ⟨c, hc, by rw [h]; exact m2⟩
          · exact Or.inr h

/-! ### C82 -/

section
variable {k : Config} {x : Externals} (ha : Assumed k x) (hcl : ∀ c, ∀ p ∈ (x.clean c).1, p ∈ c)
  {subj clip : List (List Pt)} (hf : FragFor k subj clip) (hns : ∀ c ∈ subj ++ clip, NotClosedExplicitly c)
  (hin : ∀ c ∈ subj ++ clip, ∀ p ∈ c, InRange p) (hw : WholeCrossings ((subj ++ clip).flatMap polyEdges))
  (r : OverlayRule) (rule : FillRule) (cw : Bool) (minArea : Nat)
include ha hcl hf hns hin hw

/-- C82 (one-shot overlay): every vertex of the result was given, or two given edges cross in it. -/
theorem C82_overlay {shapes : List (List (List Pt))}
    (h : overlayCustom k x r rule cw minArea (overlaySegments subj clip) = some shapes) :
    ∀ s ∈ shapes, ∀ c ∈ s, ∀ p ∈ c, GivenOrCrossing (subj ++ clip) p := by
  obtain ⟨segs, g, V, vis, h1, h2, h3⟩ := extract_oneShot ha hf h
  have hb := noded_origin ha.tree hf (fun c hc => hns c (List.mem_append_left _ hc))
    (fun c hc => hns c (List.mem_append_right _ hc)) hin hw h1
  intro s hs c hc p hp
  obtain ⟨e, he, rfl | rfl⟩ := h2.vertices cw hcl h3 s hs c hc p hp
  · exact (hb e he).1
  · exact (hb e he).2

/-- C82 (graph). -/
theorem C82_graph {g : Graph} (hg : intoGraph k x rule (overlaySegments subj clip) = some g)
    {shapes : List (List (List Pt))} (h : extractShapesCustom x g r cw minArea = some shapes) :
    ∀ s ∈ shapes, ∀ c ∈ s, ∀ p ∈ c, GivenOrCrossing (subj ++ clip) p := by
  obtain ⟨segs, V, vis, h1, h2, h3⟩ := extract_graph ha hf hg h
  have hb := noded_origin ha.tree hf (fun c hc => hns c (List.mem_append_left _ hc))
    (fun c hc => hns c (List.mem_append_right _ hc)) hin hw h1
  intro s hs c hc p hp
  obtain ⟨e, he, rfl | rfl⟩ := h2.vertices cw hcl h3 s hs c hc p hp
  · exact (hb e he).1
  · exact (hb e he).2

end

/-- C82 (no crossings): if no two given edges cross, the result has no vertices but given ones. -/
theorem C82_no_crossing {k : Config} {x : Externals} (ha : Assumed k x) (hcl : ∀ c, ∀ p ∈ (x.clean c).1, p ∈ c)
    {subj clip : List (List Pt)} (hf : FragFor k subj clip) (hns : ∀ c ∈ subj ++ clip, NotClosedExplicitly c)
    (hin : ∀ c ∈ subj ++ clip, ∀ p ∈ c, InRange p)
    (hw : ∀ e ∈ (subj ++ clip).flatMap polyEdges, ∀ f ∈ (subj ++ clip).flatMap polyEdges,
      (area2 e.1 e.2 f.1 ≠ 0 ∨ area2 e.1 e.2 f.2 ≠ 0) → ∀ q, inSeg q e.1 e.2 → ¬ inSeg q f.1 f.2)
    (r : OverlayRule) (rule : FillRule) (cw : Bool) (minArea : Nat) {shapes : List (List (List Pt))}
    (h : overlayCustom k x r rule cw minArea (overlaySegments subj clip) = some shapes) :
    ∀ s ∈ shapes, ∀ c ∈ s, ∀ p ∈ c, ∃ c' ∈ subj ++ clip, p ∈ c' := by
  intro s hs c hc p hp
  rcases C82_overlay ha hcl hf hns hin (fun e he f hf' hn q h1 h2 => absurd h2 (hw e he f hf' hn q h1)) r rule cw minArea h
    s hs c hc p hp with h | ⟨e, he, f, hf', hn, h1, h2⟩
  · exact h
  · exact absurd h2 (hw e he f hf' hn _ h1)

/-! ### examples -/

/-- An edge with both ends on one side of another does not cross it. -/
theorem not_crossing {a b c d : Pt} {q : QPt} (hn : area2 a b c ≠ 0 ∨ area2 a b d ≠ 0)
    (hs : (0 ≤ area2 a b c ∧ 0 ≤ area2 a b d) ∨ (area2 a b c ≤ 0 ∧ area2 a b d ≤ 0)) (h1 : inSeg q a b) : ¬ inSeg q c d := by
  intro h2
  obtain ⟨t, -, -, ht⟩ := h1
  obtain ⟨u, u0, u1, hu⟩ := h2
  have f1 := qarea_param (a := a) (b := b) hu
  rw [qarea_self ht] at f1
  have hu1 : 0 < 1 - u := by linarith
  have key : ∀ A B : ℚ, 0 ≤ A → 0 ≤ B → 0 = (1 - u) * A + u * B → A = 0 ∧ B = 0 := by
    intro A B hA hB h
    have k1 := mul_nonneg hu1.le hA
    have k2 := mul_nonneg u0.le hB
    have e1 : (1 - u) * A = 0 := by linarith
    have e2 : u * B = 0 := by linarith
    exact ⟨(mul_eq_zero.1 e1).resolve_left hu1.ne', (mul_eq_zero.1 e2).resolve_left u0.ne'⟩
  have : (area2 a b c : ℚ) = 0 ∧ (area2 a b d : ℚ) = 0 := by
    rcases hs with ⟨h1, h2⟩ | ⟨h1, h2⟩
    · exact key _ _ (by exact_mod_cast h1) (by exact_mod_cast h2) f1
    · have := key (-(area2 a b c : ℚ)) (-(area2 a b d : ℚ)) (by rw [neg_nonneg]; exact_mod_cast h1)
        (by rw [neg_nonneg]; exact_mod_cast h2) (by linarith)
      exact ⟨neg_eq_zero.1 this.1, neg_eq_zero.1 this.2⟩
  rcases hn with h | h
  · exact h (by exact_mod_cast this.1)
  · exact h (by exact_mod_cast this.2)

/-- Crossing triangles meet the hypotheses of `C82_overlay` and `C82_graph`; their edges do cross. -/
example : Assumed exConfig exRaw ∧ (∀ c, ∀ p ∈ (exRaw.clean c).1, p ∈ c) ∧ FragFor exConfig exWhole.1 exWhole.2 ∧
    (∀ c ∈ exWhole.1 ++ exWhole.2, NotClosedExplicitly c) ∧ (∀ c ∈ exWhole.1 ++ exWhole.2, ∀ p ∈ c, InRange p) ∧
    WholeCrossings ((exWhole.1 ++ exWhole.2).flatMap polyEdges) ∧
    CrossingOf ((exWhole.1 ++ exWhole.2).flatMap polyEdges) ⟨2, 0⟩ :=
  ⟨exRaw_assumed.1, fun _ _ h => h, FragOk.list _ _, by decide, by unfold InRange; decide,
    decide_whole (by decide +kernel),
    (⟨0, 0⟩, ⟨8, 0⟩), by decide, (⟨0, 4⟩, ⟨4, -4⟩), by decide, by decide,
    ⟨1 / 4, by norm_num, by norm_num, by norm_num [Pt.q], by norm_num [Pt.q]⟩,
    ⟨1 / 2, by norm_num, by norm_num, by norm_num [Pt.q], by norm_num [Pt.q]⟩⟩

/-- Nested triangles meet the hypotheses of `C82_no_crossing`. -/
example : let subj : List (List Pt) := [[⟨0, 0⟩, ⟨10, 0⟩, ⟨5, 10⟩]]; let clip : List (List Pt) := [[⟨4, 2⟩, ⟨6, 2⟩, ⟨5, 3⟩]]
    (∀ c ∈ subj ++ clip, NotClosedExplicitly c) ∧ (∀ c ∈ subj ++ clip, ∀ p ∈ c, InRange p) ∧
    ∀ e ∈ (subj ++ clip).flatMap polyEdges, ∀ f ∈ (subj ++ clip).flatMap polyEdges,
      (area2 e.1 e.2 f.1 ≠ 0 ∨ area2 e.1 e.2 f.2 ≠ 0) → ∀ q, inSeg q e.1 e.2 → ¬ inSeg q f.1 f.2 := by
  refine ⟨by decide, by unfold InRange; decide, ?_⟩
  have h : ∀ e ∈ ([[⟨0, 0⟩, ⟨10, 0⟩, ⟨5, 10⟩]] ++ [[⟨4, 2⟩, ⟨6, 2⟩, ⟨5, 3⟩]] : List (List Pt)).flatMap polyEdges,
      ∀ f ∈ ([[⟨0, 0⟩, ⟨10, 0⟩, ⟨5, 10⟩]] ++ [[⟨4, 2⟩, ⟨6, 2⟩, ⟨5, 3⟩]] : List (List Pt)).flatMap polyEdges,
      (area2 e.1 e.2 f.1 ≠ 0 ∨ area2 e.1 e.2 f.2 ≠ 0) →
      (((0 ≤ area2 e.1 e.2 f.1 ∧ 0 ≤ area2 e.1 e.2 f.2) ∨ (area2 e.1 e.2 f.1 ≤ 0 ∧ area2 e.1 e.2 f.2 ≤ 0)) ∨
       (area2 f.1 f.2 e.1 ≠ 0 ∨ area2 f.1 f.2 e.2 ≠ 0) ∧
       ((0 ≤ area2 f.1 f.2 e.1 ∧ 0 ≤ area2 f.1 f.2 e.2) ∨ (area2 f.1 f.2 e.1 ≤ 0 ∧ area2 f.1 f.2 e.2 ≤ 0))) := by
    decide +kernel
  intro e he f hf hn q h1 h2
  rcases h e he f hf hn with h | ⟨h, h'⟩
  · exact not_crossing hn h h1 h2
  · exact not_crossing h h' h2 h1

end IOverlay
