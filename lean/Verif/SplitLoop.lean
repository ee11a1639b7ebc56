/- Invariants of the splitting loops. -/
import Verif.Noding

namespace IOverlay
open WindingCount
variable {C : Type}

theorem SnapRadius.radius_nonneg (s : SnapRadius) : 0 ≤ s.radius := by
  unfold SnapRadius.radius; positivity

/-- Contract of the external segment tree. -/
def TreeOracle.Ok (tree : TreeOracle C) : Prop :=
  ∀ segs : List (Seg C), segs.Pairwise Seg.lt → (∀ s ∈ segs, s.a < s.b) → Covers (tree.pairs segs) segs

theorem sorted_of_strict {l : List (Seg C)} (h : l.Pairwise Seg.lt) : SortedSegs l :=
  h.imp fun h => Seg.le_iff.2 (Or.inl h)

section
variable [WindingCount C]

theorem applyMarks_sorted (marks : List Mark) (segs : List (Seg C)) :
    (applyMarks marks segs).Pairwise Seg.lt := mergeIfNeeded_sorted _ (sortSegs_sorted _)

theorem applyMarks_lt {segs : List (Seg C)} {pairs : List EPair} {radius : Int}
    (hl : ∀ s ∈ segs, s.a < s.b) (hc : Covers pairs segs) (hr : 0 ≤ radius) :
    ∀ e ∈ applyMarks (roundMarks radius pairs).1 segs, e.a < e.b := by
  intro e he
  obtain ⟨e', h1, h2, h3⟩ := mergeIfNeeded_edges _ e he
  rw [(sortSegs_perm _).mem_iff] at h1
  rw [h2, h3]
  refine splitAll_lt _ _ hl ?_ e' h1
  intro m hm s hs
  obtain ⟨s', h, h'⟩ := roundMarks_ne hl hc hr hm
  rw [hs] at h; cases h; exact h'

/-- Invariants of all the loops: `P` is any property kept by `applyMarks`, `N` any property of noded
sets (and, unless the list loop is used throughout, of sets of at most two edges). -/
theorem splitLoop_gen (st : Strategy) (tree : TreeOracle C) (ht : tree.Ok)
    (P N : List (Seg C) → Prop) (hN : ∀ l, Noded l → N l)
    (hP : ∀ (marks : List Mark) (segs : List (Seg C)), P segs → P (applyMarks marks segs))
    (n : Nat) (mode : Mode) (sr : SnapRadius) (segs r : List (Seg C))
    (h2 : (st = .list ∧ mode = .list) ∨
      ∀ l : List (Seg C), l.Pairwise Seg.lt → (∀ s ∈ l, s.a < s.b) → P l → l.length ≤ 2 → N l)
    (hs : segs.Pairwise Seg.lt) (hl : ∀ s ∈ segs, s.a < s.b) (hp : P segs)
    (he : splitLoop st tree n mode sr segs = some r) :
    N r ∧ r.Pairwise Seg.lt ∧ (∀ s ∈ r, s.a < s.b) ∧ P r := by
  induction n generalizing mode sr segs with
  | zero => simp [splitLoop] at he
  | succ n ih =>
    cases mode with
    | list =>
      rw [splitLoop] at he
      have hc := listPairs_covers segs (sorted_of_strict hs) hl
      have hr := sr.radius_nonneg
      split at he
      · next hlen =>
        simp only [Option.some.injEq] at he; subst he
        refine ⟨hN _ ?_, hs, hl, hp⟩
        match segs, hlen with
        | [], _ => exact List.Pairwise.nil
        | [x], _ => exact List.pairwise_singleton _ _
      · simp only at he
        split at he
        · next hm =>
          simp only [Option.some.injEq] at he; subst he
          exact ⟨hN _ (noded_of_no_marks hs hl hc hr (List.isEmpty_iff.1 hm)), hs, hl, hp⟩
        · split at he
          · next hround =>
            split at he
            · refine ih .list _ _ ?_ (applyMarks_sorted _ _) (applyMarks_lt hl hc hr) (hP _ _ hp) he
              exact h2
            · next hnl =>
              refine ih .tree _ _ ?_ (applyMarks_sorted _ _) (applyMarks_lt hl hc hr) (hP _ _ hp) he
              rcases h2 with ⟨rfl, _⟩ | h2
              · simp [isListSplit] at hnl
              · exact Or.inr h2
          · next hround =>
            simp only [Option.some.injEq] at he; subst he
            exact ⟨hN _ (applyMarks_noded hl hc hr (by simpa using hround)), applyMarks_sorted _ _,
              applyMarks_lt hl hc hr, hP _ _ hp⟩
    | tree =>
      rw [splitLoop] at he
      rcases h2 with ⟨_, h⟩ | h2
      · cases h
      · split at he
        · exact ih .treeLoop _ _ (Or.inr h2) hs hl hp he
        · exact ih .list _ _ (Or.inr h2) hs hl hp he
    | treeLoop =>
      rcases h2 with ⟨_, h⟩ | h2
      · cases h
      · rw [splitLoop] at he
        have hc := ht segs hs hl
        have hr := sr.radius_nonneg
        split at he
        · next hlen =>
          simp only [Option.some.injEq] at he; subst he
          exact ⟨h2 _ hs hl hp hlen, hs, hl, hp⟩
        · simp only at he
          split at he
          · next hm =>
            simp only [Option.some.injEq] at he; subst he
            exact ⟨hN _ (noded_of_no_marks hs hl hc hr (List.isEmpty_iff.1 hm)), hs, hl, hp⟩
          · split at he
            · exact ih .treeLoop _ _ (Or.inr h2) (applyMarks_sorted _ _) (applyMarks_lt hl hc hr)
                (hP _ _ hp) he
            · next hround =>
              simp only [Option.some.injEq] at he; subst he
              exact ⟨hN _ (applyMarks_noded hl hc hr (by simpa using hround)), applyMarks_sorted _ _,
                applyMarks_lt hl hc hr, hP _ _ hp⟩

/-- Invariants of all the loops: `P` is any property kept by `applyMarks`. -/
theorem splitLoop_spec (st : Strategy) (tree : TreeOracle C) (ht : tree.Ok)
    (P : List (Seg C) → Prop)
    (hP : ∀ (marks : List Mark) (segs : List (Seg C)), P segs → P (applyMarks marks segs))
    (n : Nat) (mode : Mode) (sr : SnapRadius) (segs r : List (Seg C))
    (h2 : (st = .list ∧ mode = .list) ∨
      ∀ l : List (Seg C), l.Pairwise Seg.lt → (∀ s ∈ l, s.a < s.b) → P l → l.length ≤ 2 → Noded l)
    (hs : segs.Pairwise Seg.lt) (hl : ∀ s ∈ segs, s.a < s.b) (hp : P segs)
    (he : splitLoop st tree n mode sr segs = some r) :
    Noded r ∧ r.Pairwise Seg.lt ∧ (∀ s ∈ r, s.a < s.b) ∧ P r := by
  exact splitLoop_gen st tree ht P Noded (fun _ h => h) hP n mode sr segs r h2 hs hl hp he

/-- Applying marks keeps the flow closed. -/
theorem applyMarks_closed {φ : C → Int} (hφ : IsComp φ) (marks : List Mark) (segs : List (Seg C))
    (h : Closed φ segs) : Closed φ (applyMarks marks segs) := by
  intro f
  rw [applyMarks_sum hφ _ (fun u v => by ring)]
  · exact h f
  · intro i s _ pts _
    exact pathSum_potential f _ _ _

end

/-! ### counts stay non-empty -/

theorem CountBool.invert_nonempty (c : CountBool) (h : isNotEmpty c = true) :
    isNotEmpty (invert c) = true := by
  simp only [isNotEmpty, invert, Bool.or_eq_true, bne_iff_ne, ne_eq] at *
  omega

theorem CountStr.invert_nonempty (c : CountStr) (h : isNotEmpty c = true) :
    isNotEmpty (invert c) = true := by
  simp only [isNotEmpty, invert, Bool.or_eq_true, bne_iff_ne, ne_eq, neg_eq_zero] at *
  tauto

theorem chainSegs_nonempty [WindingCount C] (hinv : ∀ c : C, isNotEmpty c = true → isNotEmpty (invert c) = true)
    (c : C) (hc : isNotEmpty c = true) (b p : Pt) (l : List Pt) :
    ∀ e ∈ chainSegs c b p l, isNotEmpty e.c = true := by
  have cv : ∀ u v : Pt, isNotEmpty (createValidate u v c).c = true := by
    intro u v; unfold createValidate; split
    · exact hc
    · exact hinv c hc
  induction l generalizing p with
  | nil => intro e he; simp [chainSegs] at he; subst he; exact cv _ _
  | cons m rest ih =>
    intro e he
    rcases List.mem_cons.1 he with rfl | he
    · exact cv _ _
    · exact ih m e he

theorem applyMarks_nonempty [WindingCount C]
    (hinv : ∀ c : C, isNotEmpty c = true → isNotEmpty (invert c) = true)
    (marks : List Mark) (segs : List (Seg C)) (h : ∀ s ∈ segs, isNotEmpty s.c = true) :
    ∀ e ∈ applyMarks marks segs, isNotEmpty e.c = true := by
  apply mergeIfNeeded_nonempty
  intro e he
  rw [(sortSegs_perm _).mem_iff, mem_splitAll] at he
  obtain ⟨i, s, h1, h2⟩ := he
  have hs := h s (List.mem_of_getElem? h1)
  unfold splitSeg at h2
  split at h2
  · simp at h2; subst h2; exact hs
  · exact chainSegs_nonempty hinv _ hs _ _ _ e h2

/-- Property of boolean edge lists kept by the loops. -/
def BoolOk (l : List (Seg CountBool)) : Prop :=
  Closed CountBool.subj l ∧ Closed CountBool.clip l ∧ ∀ s ∈ l, isNotEmpty s.c = true

theorem BoolOk.apply {l : List (Seg CountBool)} (h : BoolOk l) (marks : List Mark) :
    BoolOk (applyMarks marks l) :=
  ⟨applyMarks_closed isComp_subj _ _ h.1, applyMarks_closed isComp_clip _ _ h.2.1,
    applyMarks_nonempty CountBool.invert_nonempty _ _ h.2.2⟩

/-- A closed boolean edge set with at most two edges is empty. -/
theorem BoolOk.small {l : List (Seg CountBool)} (h : BoolOk l) (hs : l.Pairwise Seg.lt)
    (hl : ∀ s ∈ l, s.a < s.b) (hlen : l.length ≤ 2) : l = [] := by
  obtain ⟨h1, h2, h3⟩ := h
  have z : ∀ s ∈ l, s.c.subj = 0 → s.c.clip = 0 → False := by
    intro s hs e1 e2
    have := h3 s hs
    simp [isNotEmpty, e1, e2] at this
  match l, hlen with
  | [], _ => rfl
  | [s], _ =>
    exfalso
    have lt := hl s (by simp)
    have f1 := h1 fun p => if p = s.a then 1 else 0
    have f2 := h2 fun p => if p = s.a then 1 else 0
    simp [(Pt.ne_of_lt lt).symm] at f1 f2
    exact z s (by simp) f1 f2
  | [s, t], _ =>
    exfalso
    have ls := hl s (by simp)
    have lt := hl t (by simp)
    have hst : s.lt t := by simpa using hs
    have tb : t.b ≠ s.a := by
      intro e
      unfold Seg.lt at hst
      rw [e] at lt
      rcases hst with h | ⟨h, _⟩
      · exact Pt.lt_asymm h lt
      · rw [h] at lt; exact Pt.lt_irrefl _ lt
    by_cases ta : t.a = s.a
    · have hb : s.b < t.b := by
        unfold Seg.lt at hst
        rcases hst with h | ⟨_, h⟩
        · rw [ta] at h; exact absurd h (Pt.lt_irrefl _)
        · exact h
      have f1 := h1 fun p => if p = t.b then 1 else 0
      have f2 := h2 fun p => if p = t.b then 1 else 0
      simp [Pt.ne_of_lt hb, ta, tb.symm] at f1 f2
      exact z t (by simp) f1 f2
    · have f1 := h1 fun p => if p = s.a then 1 else 0
      have f2 := h2 fun p => if p = s.a then 1 else 0
      simp [(Pt.ne_of_lt ls).symm, ta, tb] at f1 f2
      exact z s (by simp) f1 f2

end IOverlay
