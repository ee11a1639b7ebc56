/-
Property C16: exactness of the crossing test.
-/
import Verif.CrossMask

namespace IOverlay

/-- Four points on one line (spec): all on the line `α x + β y = γ`. -/
def OnOneLine (p1 p2 p3 p4 : Pt) : Prop :=
  ∃ α β γ : Int, (α ≠ 0 ∨ β ≠ 0) ∧ ∀ p ∈ [p1, p2, p3, p4], α * p.x + β * p.y = γ

theorem allOnLine_iff {t o : XSeg} (ht : t.a ≠ t.b) :
    AllOnLine t o ↔ OnOneLine t.a t.b o.a o.b := by
  constructor
  · rintro ⟨h1, h2, _, _⟩
    refine ⟨t.b.y - t.a.y, -(t.b.x - t.a.x), (t.b.y - t.a.y) * t.a.x - (t.b.x - t.a.x) * t.a.y, ?_, ?_⟩
    · rw [ne_eq, Pt.ext_iff'] at ht; omega
    · unfold area2 at h1 h2
      intro p hp
      simp only [List.mem_cons, List.not_mem_nil, or_false] at hp
      rcases hp with rfl | rfl | rfl | rfl
      · ring
      · ring
      · linear_combination h1
      · linear_combination h2
  · rintro ⟨α, β, γ, hn, h⟩
    have e1 := h t.a (by simp); have e2 := h t.b (by simp)
    have e3 := h o.a (by simp); have e4 := h o.b (by simp)
    have key : ∀ u v w : Pt, α * u.x + β * u.y = γ → α * v.x + β * v.y = γ → α * w.x + β * w.y = γ →
        area2 u v w = 0 := by
      intro u v w hu hv hw
      unfold area2
      rcases hn with hn | hn
      · apply mul_left_cancel₀ hn
        linear_combination (w.y - v.y) * hu + (u.y - w.y) * hv + (v.y - u.y) * hw
      · apply mul_left_cancel₀ hn
        linear_combination (v.x - w.x) * hu + (w.x - u.x) * hv + (u.x - v.x) * hw
    exact ⟨key _ _ _ e1 e2 e3, key _ _ _ e1 e2 e4, key _ _ _ e3 e4 e1, key _ _ _ e3 e4 e2⟩

theorem not_zero_of_not_all {t o : XSeg} (ht : t.a ≠ t.b) (h : ¬ AllOnLine t o) :
    ¬ (area2 t.a t.b o.a = 0 ∧ area2 t.a t.b o.b = 0) :=
  fun ⟨h1, h2⟩ => h ⟨h1, h2, (all_line ht h1 h2).1, (all_line ht h1 h2).2⟩

/-- C16: what each answer of the crossing test means, for two non-degenerate edges `t` (target) and
`o` (other) and any snap radius:
* overlay iff the four end points are on one line;
* nothing iff they are not, and every common point is an end point of both edges;
* an (exact) touch of `t` by the end `p` of `o` iff `p` is an end of `o` strictly inside `t`, edges
  not collinear, and symmetrically;
* in all remaining cases there is exactly one common point and it is strictly inside both edges, and
  the answer is a crossing, exact only if that point is an integer point. -/
theorem C16_crossing_test (t o : XSeg) (ht : t.a ≠ t.b) (ho : o.a ≠ o.b) (radius : Int)
    (hr : 0 ≤ radius) :
    (cross t o radius = some ⟨⟨0, 0⟩, .overlay, false⟩ ↔ OnOneLine t.a t.b o.a o.b) ∧
    (cross t o radius = none ↔ ¬ OnOneLine t.a t.b o.a o.b ∧ MeetAtEnds t.a t.b o.a o.b) ∧
    (∀ p, cross t o radius = some ⟨p, .otherEnd, false⟩ ↔
      ¬ OnOneLine t.a t.b o.a o.b ∧ (p = o.a ∨ p = o.b) ∧ inSeg p.q t.a t.b) ∧
    (∀ p, cross t o radius = some ⟨p, .targetEnd, false⟩ ↔
      ¬ OnOneLine t.a t.b o.a o.b ∧ (p = t.a ∨ p = t.b) ∧ inSeg p.q o.a o.b) ∧
    (∀ p, cross t o radius = some ⟨p, .pure, false⟩ ↔
      ¬ OnOneLine t.a t.b o.a o.b ∧ inSeg p.q t.a t.b ∧ inSeg p.q o.a o.b ∧ p = crossPoint t o) ∧
    ((∃ r, cross t o radius = some r ∧ (r.isRound = true ∨ r.type = .pure)) ↔
      ¬ OnOneLine t.a t.b o.a o.b ∧ ∃ p : QPt, inSeg p t.a t.b ∧ inSeg p o.a o.b) := by
  rw [← allOnLine_iff ht]
  have hs := cross_spec t o ht ho radius
  -- facts excluding each other
  have meet_no_end : ∀ p : Pt, MeetAtEnds t.a t.b o.a o.b → inSeg p.q t.a t.b →
      ¬ (p = o.a ∨ p = o.b) := by
    rintro p hm hi (rfl | rfl)
    · have := (hm _ hi.on (onSeg_left _ _)).1; have := hi.ne ht; tauto
    · have := (hm _ hi.on (onSeg_right _ _)).1; have := hi.ne ht; tauto
  have meet_no_end' : ∀ p : Pt, MeetAtEnds t.a t.b o.a o.b → inSeg p.q o.a o.b →
      ¬ (p = t.a ∨ p = t.b) := by
    rintro p hm hi (rfl | rfl)
    · have := (hm _ (onSeg_left _ _) hi.on).2; have := hi.ne ho; tauto
    · have := (hm _ (onSeg_right _ _) hi.on).2; have := hi.ne ho; tauto
  have meet_no_in : ∀ p : QPt, MeetAtEnds t.a t.b o.a o.b → inSeg p t.a t.b → ¬ inSeg p o.a o.b := by
    intro p hm h1 h2
    have := (hm _ h1.on h2.on).1; have := h1.ne ht; tauto
  have end_on_o : ∀ p : Pt, (p = o.a ∨ p = o.b) → onSeg p.q o.a o.b := by
    rintro p (rfl | rfl); exacts [onSeg_left _ _, onSeg_right _ _]
  have end_on_t : ∀ p : Pt, (p = t.a ∨ p = t.b) → onSeg p.q t.a t.b := by
    rintro p (rfl | rfl); exacts [onSeg_left _ _, onSeg_right _ _]
  have uniq : ¬ AllOnLine t o → ∀ p p' : QPt, onSeg p t.a t.b → onSeg p o.a o.b → onSeg p' t.a t.b →
      onSeg p' o.a o.b → p = p' :=
    fun hn p p' a b c d => common_unique (not_zero_of_not_all ht hn) a b c d
  have q_end_t : ∀ p : Pt, inSeg p.q t.a t.b → ¬ (p = t.a ∨ p = t.b) := by
    rintro p h (rfl | rfl); exacts [(h.ne ht).1 rfl, (h.ne ht).2 rfl]
  have q_end_o : ∀ p : Pt, inSeg p.q o.a o.b → ¬ (p = o.a ∨ p = o.b) := by
    rintro p h (rfl | rfl); exacts [(h.ne ho).1 rfl, (h.ne ho).2 rfl]
  cases hc : cross t o radius with
  | none =>
    rw [hc] at hs
    cases hs with
    | none hn hm =>
      simp only [reduceCtorEq, false_iff, true_iff, false_and, exists_false]
      refine ⟨hn, ⟨hn, hm⟩, ?_, ?_, ?_, ?_⟩
      · rintro p ⟨_, h1, h2⟩; exact meet_no_end p hm h2 h1
      · rintro p ⟨_, h1, h2⟩; exact meet_no_end' p hm h2 h1
      · rintro p ⟨_, h1, h2, _⟩; exact meet_no_in _ hm h1 h2
      · rintro ⟨_, p, h1, h2⟩; exact meet_no_in _ hm h1 h2
  | some r =>
    rw [hc] at hs
    generalize hrr : some r = rr at hs
    cases hs with
    | none => exact absurd hrr (by simp)
    | overlay hall =>
      cases hrr
      simp [hall]
    | otherEnd p hn he hi =>
      cases hrr
      simp only [Option.some.injEq, CrossResult.mk.injEq, reduceCtorEq, false_and, and_false,
        and_true, false_iff, true_and]
      have hnm : ¬ MeetAtEnds t.a t.b o.a o.b := fun hm => meet_no_end p hm hi he
      refine ⟨hn, fun h => hnm h.2, ?_, ?_, ?_, ?_⟩
      · intro p'
        constructor
        · rintro rfl; exact ⟨hn, he, hi⟩
        · rintro ⟨_, h1, h2⟩
          exact Pt.q_inj (uniq hn _ _ hi.on (end_on_o _ he) h2.on (end_on_o _ h1))
      · rintro p' ⟨_, h1, h2⟩
        have := Pt.q_inj (uniq hn _ _ hi.on (end_on_o _ he) (end_on_t _ h1) h2.on)
        subst this; exact q_end_t p hi h1
      · rintro p' ⟨_, h1, h2, _⟩
        have := Pt.q_inj (uniq hn _ _ hi.on (end_on_o _ he) h1.on h2.on)
        subst this; exact q_end_o p h2 he
      · constructor
        · rintro ⟨r, e, h⟩; subst e; simp at h
        · rintro ⟨_, p', h1, h2⟩
          have := uniq hn _ _ hi.on (end_on_o _ he) h1.on h2.on
          subst this; exact absurd he (q_end_o p h2)
    | targetEnd p hn he hi =>
      cases hrr
      simp only [Option.some.injEq, CrossResult.mk.injEq, reduceCtorEq, false_and, and_false,
        and_true, false_iff, true_and]
      have hnm : ¬ MeetAtEnds t.a t.b o.a o.b := fun hm => meet_no_end' p hm hi he
      refine ⟨hn, fun h => hnm h.2, ?_, ?_, ?_, ?_⟩
      · rintro p' ⟨_, h1, h2⟩
        have := Pt.q_inj (uniq hn _ _ (end_on_t _ he) hi.on h2.on (end_on_o _ h1))
        subst this; exact q_end_t p h2 he
      · intro p'
        constructor
        · rintro rfl; exact ⟨hn, he, hi⟩
        · rintro ⟨_, h1, h2⟩
          exact Pt.q_inj (uniq hn _ _ (end_on_t _ he) hi.on (end_on_t _ h1) h2.on)
      · rintro p' ⟨_, h1, h2, _⟩
        have := Pt.q_inj (uniq hn _ _ (end_on_t _ he) hi.on h1.on h2.on)
        subst this; exact q_end_t p h1 he
      · constructor
        · rintro ⟨r, e, h⟩; subst e; simp at h
        · rintro ⟨_, p', h1, h2⟩
          have := uniq hn _ _ (end_on_t _ he) hi.on h1.on h2.on
          subst this; exact absurd he (q_end_t p h1)
    | middle h1 h2 =>
      obtain ⟨x, hx1, hx2⟩ := exists_cross_of_opp ho h1 h2
      have hn : ¬ AllOnLine t o := by
        rintro ⟨e, _⟩; rw [e] at h1; unfold Opp at h1; omega
      have hnm : ¬ MeetAtEnds t.a t.b o.a o.b := fun hm => meet_no_in x hm hx1 hx2
      have noO : ∀ p : Pt, (p = o.a ∨ p = o.b) → ¬ inSeg p.q t.a t.b := by
        intro p he hi
        have := uniq hn _ _ hx1.on hx2.on hi.on (end_on_o _ he)
        subst this; exact q_end_o p hx2 he
      have noT : ∀ p : Pt, (p = t.a ∨ p = t.b) → ¬ inSeg p.q o.a o.b := by
        intro p he hi
        have := uniq hn _ _ hx1.on hx2.on (end_on_t _ he) hi.on
        subst this; exact q_end_t p hx1 he
      have hm := middleCross_spec h1 h2 hr
      have hpt : ∀ p, inSeg p.q t.a t.b → inSeg p.q o.a o.b → p = crossPoint t o →
          middleCross t o radius = ⟨p, .pure, false⟩ := by
        intro p hp1 hp2 e
        obtain ⟨u, _, _, hu⟩ := hp1
        obtain ⟨v, _, _, hv⟩ := hp2
        have l1 := qarea_self hu
        have l2 := qarea_self hv
        rw [qarea_q] at l1 l2
        unfold middleCross
        rw [← e]
        have a1 : isLine t.a p t.b = true := isLine_mid.2 (by exact_mod_cast l1)
        have a2 : isLine o.a p o.b = true := isLine_mid.2 (by exact_mod_cast l2)
        simp [a1, a2]
      injection hrr with hrr
      subst hrr
      have back : ∀ p, middleCross t o radius = ⟨p, .pure, false⟩ ↔ ¬ AllOnLine t o ∧ inSeg p.q t.a t.b ∧
          inSeg p.q o.a o.b ∧ p = crossPoint t o := by
        intro p
        constructor
        · intro e
          have hm' := hm
          rw [e] at hm'
          cases hm' with
          | exact _ i1 i2 =>
            refine ⟨hn, i1, i2, ?_⟩
            unfold middleCross at e
            simp only at e
            split at e
            · simp only [CrossResult.mk.injEq, and_true] at e; exact e.symm
            · split at e
              · (repeat' split at e) <;> simp at e
              · simp at e
        · rintro ⟨_, i1, i2, e⟩; exact hpt p i1 i2 e
      simp only [Option.some.injEq]
      refine ⟨?_, ?_, ?_, ?_, ?_, ?_⟩
      · constructor
        · intro e; rw [e] at hm; cases hm
        · intro h; exact absurd h hn
      · simp only [reduceCtorEq, false_iff]; exact fun h => hnm h.2
      · intro p
        constructor
        · intro e; rw [e] at hm; cases hm
        · rintro ⟨_, he, hi⟩; exact absurd hi (noO p he)
      · intro p
        constructor
        · intro e; rw [e] at hm; cases hm
        · rintro ⟨_, he, hi⟩; exact absurd hi (noT p he)
      · exact back
      · constructor
        · intro _; exact ⟨hn, x, hx1, hx2⟩
        · intro _
          refine ⟨_, rfl, ?_⟩
          generalize middleCross t o radius = r at hm
          cases hm with
          | exact => simp
          | round => simp
          | target => simp
          | other => simp

/-- C16, collinear edges: precisely the end points strictly inside the other edge are flagged. -/
theorem C16_collinear_flags (t o : XSeg) (ht : t.a ≠ t.b) (ho : o.a ≠ o.b)
    (h : OnOneLine t.a t.b o.a o.b) :
    ((collinear t o).targetA = true ↔ inSeg t.a.q o.a o.b) ∧
    ((collinear t o).targetB = true ↔ inSeg t.b.q o.a o.b) ∧
    ((collinear t o).otherA = true ↔ inSeg o.a.q t.a t.b) ∧
    ((collinear t o).otherB = true ↔ inSeg o.b.q t.a t.b) :=
  collinear_spec ht ho ((allOnLine_iff ht).2 h)

/-- Each of the answers occurs. -/
example :
    cross ⟨⟨0, 0⟩, ⟨4, 4⟩⟩ ⟨⟨0, 4⟩, ⟨4, 0⟩⟩ 1 = some ⟨⟨2, 2⟩, .pure, false⟩ ∧
    cross ⟨⟨0, 0⟩, ⟨4, 4⟩⟩ ⟨⟨2, 2⟩, ⟨4, 0⟩⟩ 1 = some ⟨⟨2, 2⟩, .otherEnd, false⟩ ∧
    cross ⟨⟨2, 2⟩, ⟨4, 0⟩⟩ ⟨⟨0, 0⟩, ⟨4, 4⟩⟩ 1 = some ⟨⟨2, 2⟩, .targetEnd, false⟩ ∧
    cross ⟨⟨0, 0⟩, ⟨4, 4⟩⟩ ⟨⟨0, 0⟩, ⟨4, 0⟩⟩ 1 = none ∧
    collinear ⟨⟨0, 0⟩, ⟨4, 4⟩⟩ ⟨⟨2, 2⟩, ⟨6, 6⟩⟩ = ⟨false, true, true, false⟩ := by
  decide +kernel

end IOverlay
