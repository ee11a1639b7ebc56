/- What `crossMarks` returns. -/
import Verif.Split
import Verif.Props.Cross

namespace IOverlay

/-- The possible results of `crossMarks`. -/
inductive MarksSpec (p : EPair) : List Mark × Bool → Prop
  | none : ¬ AllOnLine p.ei p.ej → MeetAtEnds p.ei.a p.ei.b p.ej.a p.ej.b → MarksSpec p ([], false)
  | endI (pt : Pt) : ¬ AllOnLine p.ei p.ej → (pt = p.ej.a ∨ pt = p.ej.b) →
      inSeg pt.q p.ei.a p.ei.b → MarksSpec p ([⟨p.i, pt⟩], false)
  | endJ (pt : Pt) : ¬ AllOnLine p.ei p.ej → (pt = p.ei.a ∨ pt = p.ei.b) →
      inSeg pt.q p.ej.a p.ej.b → MarksSpec p ([⟨p.j, pt⟩], false)
  | both (pt : Pt) : ¬ AllOnLine p.ei p.ej → inSeg pt.q p.ei.a p.ei.b → inSeg pt.q p.ej.a p.ej.b →
      MarksSpec p ([⟨p.i, pt⟩, ⟨p.j, pt⟩], false)
  | round (l : List Mark) : ¬ AllOnLine p.ei p.ej → (∃ q, inSeg q p.ei.a p.ei.b ∧ inSeg q p.ej.a p.ej.b) → l ≠ [] →
      (∀ m ∈ l, (m.index = p.i ∧ m.point ≠ p.ei.a ∧ m.point ≠ p.ei.b) ∨
        (m.index = p.j ∧ m.point ≠ p.ej.a ∧ m.point ≠ p.ej.b)) →
      (∀ m ∈ l, m.point = crossPoint p.ei p.ej ∨ m.point = p.ei.a ∨ m.point = p.ei.b ∨
        m.point = p.ej.a ∨ m.point = p.ej.b) → MarksSpec p (l, true)
  | overlay (l : List Mark) : AllOnLine p.ei p.ej →
      (∀ m, m ∈ l ↔ (m.index = p.j ∧ (m.point = p.ei.a ∨ m.point = p.ei.b) ∧
          inSeg m.point.q p.ej.a p.ej.b) ∨
        (m.index = p.i ∧ (m.point = p.ej.a ∨ m.point = p.ej.b) ∧ inSeg m.point.q p.ei.a p.ei.b)) →
      MarksSpec p (l, false)

theorem crossMarks_spec (p : EPair) (hi : p.ei.a ≠ p.ei.b) (hj : p.ej.a ≠ p.ej.b) {radius : Int}
    (hr : 0 ≤ radius) : MarksSpec p (crossMarks radius p) := by
  unfold crossMarks
  have sp := cross_spec p.ei p.ej hi hj radius
  generalize cross p.ei p.ej radius = r at sp
  cases sp with
  | overlay h =>
    obtain ⟨c1, c2, c3, c4⟩ := collinear_spec hi hj h
    dsimp only
    generalize collinear p.ei p.ej = mk at c1 c2 c3 c4
    obtain ⟨ta, tb, oa, ob⟩ := mk
    dsimp only at c1 c2 c3 c4 ⊢
    have key : ∀ m : Mark, m ∈ (if ta then [(⟨p.j, p.ei.a⟩ : Mark)] else []) ++
        (if tb then [⟨p.j, p.ei.b⟩] else []) ++ (if oa then [⟨p.i, p.ej.a⟩] else []) ++
        (if ob then [⟨p.i, p.ej.b⟩] else []) ↔
        (m.index = p.j ∧ (m.point = p.ei.a ∨ m.point = p.ei.b) ∧ inSeg m.point.q p.ej.a p.ej.b) ∨
        (m.index = p.i ∧ (m.point = p.ej.a ∨ m.point = p.ej.b) ∧
          inSeg m.point.q p.ei.a p.ei.b) := by
      rintro ⟨ix, pt⟩
      simp only [List.mem_append]
      have h1 : ∀ (b : Bool) (m n : Mark), m ∈ (if b then [n] else []) ↔ b = true ∧ m = n := by
        intro b m n; cases b <;> simp
      rw [h1, h1, h1, h1, c1, c2, c3, c4]
      simp only [Mark.mk.injEq]
      constructor
      · rintro (((⟨a, rfl, rfl⟩ | ⟨a, rfl, rfl⟩) | ⟨a, rfl, rfl⟩) | ⟨a, rfl, rfl⟩)
        · exact Or.inl ⟨rfl, Or.inl rfl, a⟩
        · exact Or.inl ⟨rfl, Or.inr rfl, a⟩
        · exact Or.inr ⟨rfl, Or.inl rfl, a⟩
        · exact Or.inr ⟨rfl, Or.inr rfl, a⟩
      · rintro (⟨rfl, rfl | rfl, a⟩ | ⟨rfl, rfl | rfl, a⟩)
        · exact Or.inl (Or.inl (Or.inl ⟨a, rfl, rfl⟩))
        · exact Or.inl (Or.inl (Or.inr ⟨a, rfl, rfl⟩))
        · exact Or.inl (Or.inr ⟨a, rfl, rfl⟩)
        · exact Or.inr ⟨a, rfl, rfl⟩
    split
    · next h0 =>
      refine .overlay _ h ?_
      intro m; rw [← key m]
      revert h0; cases ta <;> cases tb <;> cases oa <;> cases ob <;> simp
    · exact .overlay _ h key
  | none h hm => exact .none h hm
  | otherEnd pt h he hin => exact .endI pt h he hin
  | targetEnd pt h he hin => exact .endJ pt h he hin
  | middle h1 h2 =>
    have hn : ¬ AllOnLine p.ei p.ej := by
      rintro ⟨a, _, _, _⟩; unfold Opp at h1; omega
    have hc := exists_cross_of_opp hj h1 h2
    have ms := middleCross_spec h1 h2 hr
    generalize middleCross p.ei p.ej radius = r at ms
    cases ms with
    | exact pt a b => exact .both pt hn a b
    | round pt e a b c d =>
      refine .round _ hn hc (by simp) ?_ ?_
      · intro m hm
        simp only [List.mem_cons, List.not_mem_nil, or_false] at hm
        rcases hm with rfl | rfl
        · exact Or.inl ⟨rfl, a, b⟩
        · exact Or.inr ⟨rfl, c, d⟩
      · intro m hm
        simp only [List.mem_cons, List.not_mem_nil, or_false] at hm
        rcases hm with rfl | rfl <;> exact Or.inl e
    | target pt e a b =>
      refine .round _ hn hc (by simp) ?_ ?_
      · intro m hm
        simp only [List.mem_cons, List.not_mem_nil, or_false] at hm
        subst hm; exact Or.inr ⟨rfl, a, b⟩
      · intro m hm
        simp only [List.mem_cons, List.not_mem_nil, or_false] at hm
        subst hm; tauto
    | other pt e a b =>
      refine .round _ hn hc (by simp) ?_ ?_
      · intro m hm
        simp only [List.mem_cons, List.not_mem_nil, or_false] at hm
        subst hm; exact Or.inl ⟨rfl, a, b⟩
      · intro m hm
        simp only [List.mem_cons, List.not_mem_nil, or_false] at hm
        subst hm; tauto

variable {p : EPair} {radius : Int}

/-- Marks never coincide with an end of the edge they split. -/
theorem crossMarks_ne (hi : p.ei.a ≠ p.ei.b) (hj : p.ej.a ≠ p.ej.b) (hr : 0 ≤ radius) {m : Mark}
    (hm : m ∈ (crossMarks radius p).1) :
    (m.index = p.i ∧ m.point ≠ p.ei.a ∧ m.point ≠ p.ei.b) ∨
      (m.index = p.j ∧ m.point ≠ p.ej.a ∧ m.point ≠ p.ej.b) := by
  have sp := crossMarks_spec p hi hj hr
  have ne : ∀ {a b x : Pt}, a ≠ b → inSeg x.q a b → x ≠ a ∧ x ≠ b := by
    intro a b x hab h
    obtain ⟨h1, h2⟩ := h.ne hab
    exact ⟨fun e => h1 (by rw [e]), fun e => h2 (by rw [e])⟩
  generalize crossMarks radius p = r at sp hm
  cases sp with
  | none => simp at hm
  | endI pt h he hin => simp at hm; subst hm; exact Or.inl ⟨rfl, ne hi hin⟩
  | endJ pt h he hin => simp at hm; subst hm; exact Or.inr ⟨rfl, ne hj hin⟩
  | both pt h a b =>
    simp at hm
    rcases hm with rfl | rfl
    · exact Or.inl ⟨rfl, ne hi a⟩
    · exact Or.inr ⟨rfl, ne hj b⟩
  | round l _ _ _ h _ => exact h m hm
  | overlay l _ h =>
    rcases (h m).1 hm with ⟨e, _, a⟩ | ⟨e, _, a⟩
    · exact Or.inr ⟨e, ne hj a⟩
    · exact Or.inl ⟨e, ne hi a⟩

/-- Marks of a pair without rounding: strictly inside the marked edge, on the other one, and an end of
the other one if the pair is collinear. -/
theorem crossMarks_exact (hi : p.ei.a ≠ p.ei.b) (hj : p.ej.a ≠ p.ej.b) (hr : 0 ≤ radius)
    (hf : (crossMarks radius p).2 = false) {m : Mark} (hm : m ∈ (crossMarks radius p).1) :
    (m.index = p.i ∧ inSeg m.point.q p.ei.a p.ei.b ∧ onSeg m.point.q p.ej.a p.ej.b ∧
      (AllOnLine p.ei p.ej → m.point = p.ej.a ∨ m.point = p.ej.b)) ∨
    (m.index = p.j ∧ inSeg m.point.q p.ej.a p.ej.b ∧ onSeg m.point.q p.ei.a p.ei.b ∧
      (AllOnLine p.ei p.ej → m.point = p.ei.a ∨ m.point = p.ei.b)) := by
  have sp := crossMarks_spec p hi hj hr
  have hend : ∀ {a b x : Pt}, (x = a ∨ x = b) → onSeg x.q a b := by
    rintro a b x (rfl | rfl)
    · exact onSeg_left _ _
    · exact onSeg_right _ _
  generalize crossMarks radius p = r at sp hm hf
  cases sp with
  | none => simp at hm
  | endI pt h he hin => simp at hm; subst hm; exact Or.inl ⟨rfl, hin, hend he, fun _ => he⟩
  | endJ pt h he hin => simp at hm; subst hm; exact Or.inr ⟨rfl, hin, hend he, fun _ => he⟩
  | both pt h a b =>
    simp at hm
    rcases hm with rfl | rfl
    · exact Or.inl ⟨rfl, a, b.on, fun x => absurd x h⟩
    · exact Or.inr ⟨rfl, b, a.on, fun x => absurd x h⟩
  | round l _ _ _ _ _ => simp at hf
  | overlay l h1 h =>
    rcases (h m).1 hm with ⟨e, e', a⟩ | ⟨e, e', a⟩
    · exact Or.inr ⟨e, a, hend e', fun _ => e'⟩
    · exact Or.inl ⟨e, a, hend e', fun _ => e'⟩

/-- Without rounding, the common point of a non-collinear pair is an integer point which is an end or
a mark of both edges. -/
theorem crossMarks_complete (hi : p.ei.a ≠ p.ei.b) (hj : p.ej.a ≠ p.ej.b) (hr : 0 ≤ radius)
    (hf : (crossMarks radius p).2 = false) (hn : ¬ AllOnLine p.ei p.ej) {q : QPt}
    (h1 : onSeg q p.ei.a p.ei.b) (h2 : onSeg q p.ej.a p.ej.b) :
    ∃ pt : Pt, q = pt.q ∧
      (pt = p.ei.a ∨ pt = p.ei.b ∨ (⟨p.i, pt⟩ : Mark) ∈ (crossMarks radius p).1) ∧
      (pt = p.ej.a ∨ pt = p.ej.b ∨ (⟨p.j, pt⟩ : Mark) ∈ (crossMarks radius p).1) := by
  have sp := crossMarks_spec p hi hj hr
  have uniq := fun q' => common_unique (not_zero_of_not_all hi hn) (p := q) (p' := q') h1 h2
  have hend : ∀ {a b x : Pt}, (x = a ∨ x = b) → onSeg x.q a b := by
    rintro a b x (rfl | rfl)
    · exact onSeg_left _ _
    · exact onSeg_right _ _
  generalize crossMarks radius p = r at sp hf
  cases sp with
  | none _ hm =>
    obtain ⟨ha, hb⟩ := hm q h1 h2
    rcases ha with ha | ha <;> rcases hb with hb | hb
    · exact ⟨p.ei.a, ha, Or.inl rfl, Or.inl (Pt.q_inj (ha.symm.trans hb))⟩
    · exact ⟨p.ei.a, ha, Or.inl rfl, Or.inr (Or.inl (Pt.q_inj (ha.symm.trans hb)))⟩
    · exact ⟨p.ei.b, ha, Or.inr (Or.inl rfl), Or.inl (Pt.q_inj (ha.symm.trans hb))⟩
    · exact ⟨p.ei.b, ha, Or.inr (Or.inl rfl), Or.inr (Or.inl (Pt.q_inj (ha.symm.trans hb)))⟩
  | endI pt h he hin =>
    refine ⟨pt, uniq _ hin.on (hend he), Or.inr (Or.inr (by simp)), ?_⟩
    tauto
  | endJ pt h he hin =>
    refine ⟨pt, uniq _ (hend he) hin.on, ?_, Or.inr (Or.inr (by simp))⟩
    tauto
  | both pt h a b =>
    exact ⟨pt, uniq _ a.on b.on, Or.inr (Or.inr (by simp)), Or.inr (Or.inr (by simp))⟩
  | round l _ _ _ _ _ => simp at hf
  | overlay l h1 h => exact absurd h1 hn

/-- Collinear pairs: ends strictly inside the other edge are marks. -/
theorem crossMarks_collinear (hi : p.ei.a ≠ p.ei.b) (hj : p.ej.a ≠ p.ej.b) (hr : 0 ≤ radius)
    (hn : AllOnLine p.ei p.ej) (m : Mark) :
    m ∈ (crossMarks radius p).1 ↔
      (m.index = p.j ∧ (m.point = p.ei.a ∨ m.point = p.ei.b) ∧ inSeg m.point.q p.ej.a p.ej.b) ∨
      (m.index = p.i ∧ (m.point = p.ej.a ∨ m.point = p.ej.b) ∧ inSeg m.point.q p.ei.a p.ei.b) := by
  have sp := crossMarks_spec p hi hj hr
  generalize crossMarks radius p = r at sp
  cases sp with
  | none h => exact absurd hn h
  | endI _ h => exact absurd hn h
  | endJ _ h => exact absurd hn h
  | both _ h => exact absurd hn h
  | overlay l _ h => exact h m
  | round l h => exact absurd hn h

/-- Edges without a common point produce nothing. -/
theorem crossMarks_disjoint (hi : p.ei.a ≠ p.ei.b) (hj : p.ej.a ≠ p.ej.b) (hr : 0 ≤ radius)
    (hd : ∀ q, onSeg q p.ei.a p.ei.b → ¬ onSeg q p.ej.a p.ej.b) :
    crossMarks radius p = ([], false) := by
  have sp := crossMarks_spec p hi hj hr
  have hend : ∀ {a b x : Pt}, (x = a ∨ x = b) → onSeg x.q a b := by
    rintro a b x (rfl | rfl)
    · exact onSeg_left _ _
    · exact onSeg_right _ _
  generalize crossMarks radius p = r at sp
  cases sp with
  | none h => rfl
  | endI pt h he hin => exact absurd (hend he) (hd _ hin.on)
  | endJ pt h he hin => exact absurd hin.on (hd _ (hend he))
  | both pt h a b => exact absurd b.on (hd _ a.on)
  | round l _ hc => obtain ⟨q, a, b⟩ := hc; exact absurd b.on (hd _ a.on)
  | overlay l _ h =>
    rcases l with _ | ⟨m, l⟩
    · rfl
    · rcases (h m).1 (by simp) with ⟨_, e, a⟩ | ⟨_, e, a⟩
      · exact absurd a.on (hd _ (hend e))
      · exact absurd (hend e) (hd _ a.on)

end IOverlay
