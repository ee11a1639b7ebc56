/- Lemmas about sorting and merging of segments. -/
import Verif.BuildLemmas
import Mathlib.Data.List.Sort
import Mathlib.Data.List.Perm.Basic

set_option linter.unusedSectionVars false

namespace IOverlay
open WindingCount
variable {C : Type}

/-- Algebraic laws satisfied by both count types. -/
class LawfulCount (C : Type) extends WindingCount C where
  add_comm' : ∀ x y : C, add x y = add y x
  add_assoc' : ∀ x y z : C, add (add x y) z = add x (add y z)
  zero_add' : ∀ x : C, add zero x = x
  isNotEmpty_iff' : ∀ x : C, isNotEmpty x = true ↔ x ≠ zero

instance : LawfulCount CountBool where
  add_comm' x y := by simp only [add, CountBool.mk.injEq]; constructor <;> ring
  add_assoc' x y z := by simp only [add, CountBool.mk.injEq]; constructor <;> ring
  zero_add' x := by simp [add, zero]
  isNotEmpty_iff' x := by
    cases x; simp [isNotEmpty, zero]; tauto

instance : LawfulCount CountStr where
  add_comm' x y := by
    simp only [add, CountStr.mk.injEq]
    exact ⟨by ring, Bool.or_comm _ _, Bool.or_comm _ _⟩
  add_assoc' x y z := by
    simp only [add, CountStr.mk.injEq]
    exact ⟨by ring, Bool.or_assoc _ _ _, Bool.or_assoc _ _ _⟩
  zero_add' x := by simp [add, zero]
  isNotEmpty_iff' x := by
    rcases x with ⟨a, b, c⟩; cases b <;> cases c <;> simp [isNotEmpty, zero]

/-- `φ` is an additive integer component of a count type. -/
structure IsComp [WindingCount C] (φ : C → Int) : Prop where
  add : ∀ x y, φ (add x y) = φ x + φ y
  invert : ∀ x, φ (invert x) = - φ x
  zero : φ zero = 0
  empty : ∀ x, isNotEmpty x = false → φ x = 0

theorem isComp_subj : IsComp CountBool.subj :=
  ⟨fun _ _ => rfl, fun _ => rfl, rfl, fun x h => by
    simp only [isNotEmpty, Bool.or_eq_false_iff, bne_eq_false_iff_eq] at h; exact h.1⟩
theorem isComp_clip : IsComp CountBool.clip :=
  ⟨fun _ _ => rfl, fun _ => rfl, rfl, fun x h => by
    simp only [isNotEmpty, Bool.or_eq_false_iff, bne_eq_false_iff_eq] at h; exact h.2⟩
theorem isComp_strSubj : IsComp CountStr.subj :=
  ⟨fun _ _ => rfl, fun _ => rfl, rfl, fun x h => by
    simp only [isNotEmpty, Bool.or_eq_false_iff, bne_eq_false_iff_eq] at h; exact h.1⟩

theorem Seg.sameX_iff {s t : Seg C} : s.sameX t = true ↔ s.a = t.a ∧ s.b = t.b := by
  simp [Seg.sameX]

/-- Strict order on edges. -/
def Seg.lt (s t : Seg C) : Prop := s.a < t.a ∨ (s.a = t.a ∧ s.b < t.b)

theorem Seg.lt_irrefl (s : Seg C) : ¬ s.lt s := by
  rintro (h | ⟨_, h⟩) <;> exact Pt.lt_irrefl _ h

theorem Seg.lt_trans {s t u : Seg C} (h : s.lt t) (h' : t.lt u) : s.lt u := by
  rcases h with h | ⟨e, h⟩ <;> rcases h' with h' | ⟨e', h'⟩
  · exact Or.inl (Pt.lt_trans h h')
  · exact Or.inl (e' ▸ h)
  · exact Or.inl (e ▸ h')
  · exact Or.inr ⟨e.trans e', Pt.lt_trans h h'⟩

theorem Seg.le_iff {s t : Seg C} : s.le t = true ↔ s.lt t ∨ (s.a = t.a ∧ s.b = t.b) := by
  simp [Seg.le, Seg.lt]; tauto

theorem Seg.lt_of_le_of_lt {s t u : Seg C} (h : s.le t = true) (h' : t.lt u) : s.lt u := by
  rcases Seg.le_iff.1 h with h | ⟨e1, e2⟩
  · exact Seg.lt_trans h h'
  · unfold Seg.lt at *; rw [e1, e2]; exact h'

theorem Seg.le_trans {s t u : Seg C} (h : s.le t = true) (h' : t.le u = true) : s.le u = true := by
  rcases Seg.le_iff.1 h' with h' | ⟨e1, e2⟩
  · exact Seg.le_iff.2 (Or.inl (Seg.lt_of_le_of_lt h h'))
  · rw [Seg.le_iff] at *; unfold Seg.lt at *; rw [← e1, ← e2]; exact h

theorem Seg.le_total (s t : Seg C) : (s.le t || t.le s) = true := by
  rw [Bool.or_eq_true, Seg.le_iff, Seg.le_iff]; unfold Seg.lt
  rcases Pt.lt_tri s.a t.a with h | h | h
  · exact Or.inl (Or.inl (Or.inl h))
  · rcases Pt.lt_tri s.b t.b with h' | h' | h'
    · exact Or.inl (Or.inl (Or.inr ⟨h, h'⟩))
    · exact Or.inl (Or.inr ⟨h, h'⟩)
    · exact Or.inr (Or.inl (Or.inr ⟨h.symm, h'⟩))
  · exact Or.inr (Or.inl (Or.inl h))

/-- Sorted by `XSegment::cmp`. -/
def SortedSegs (l : List (Seg C)) : Prop := l.Pairwise fun s t => s.le t = true

theorem insertSeg_perm (s : Seg C) (l : List (Seg C)) : (insertSeg s l).Perm (s :: l) := by
  induction l with
  | nil => exact List.Perm.refl _
  | cons t l ih =>
    rw [insertSeg]; split
    · exact List.Perm.refl _
    · exact (ih.cons t).trans (List.Perm.swap s t l)

theorem sortSegs_perm (l : List (Seg C)) : (sortSegs l).Perm l := by
  induction l with
  | nil => exact List.Perm.refl _
  | cons s l ih => exact (insertSeg_perm s _).trans (ih.cons s)

theorem insertSeg_sorted (s : Seg C) (l : List (Seg C)) (h : SortedSegs l) :
    SortedSegs (insertSeg s l) := by
  induction l with
  | nil => simp [insertSeg, SortedSegs]
  | cons t l ih =>
    rw [insertSeg]
    have h' := List.pairwise_cons.1 h
    split
    · next hs =>
      refine List.pairwise_cons.2 ⟨fun u hu => ?_, h⟩
      rcases List.mem_cons.1 hu with rfl | hu
      · exact hs
      · exact Seg.le_trans hs (h'.1 u hu)
    · next hs =>
      refine List.pairwise_cons.2 ⟨fun u hu => ?_, ih h'.2⟩
      rcases List.mem_cons.1 ((insertSeg_perm s l).mem_iff.1 hu) with rfl | hu
      · have := Seg.le_total u t
        simpa [hs] using this
      · exact h'.1 u hu

theorem sortSegs_sorted (l : List (Seg C)) : SortedSegs (sortSegs l) := by
  induction l with
  | nil => exact List.Pairwise.nil
  | cons s l ih => exact insertSeg_sorted s _ ih

/-! ### sums are preserved by merging -/

section
variable [WindingCount C] {φ : C → Int}

theorem mergeLoop_segSum (hφ : IsComp φ) (g : Pt → Pt → Int) (prev : Seg C) (l : List (Seg C)) :
    segSum φ g (mergeLoop prev l) = φ prev.c * g prev.a prev.b + segSum φ g l := by
  induction l generalizing prev with
  | nil =>
    rw [mergeLoop]
    split
    · simp
    · next h => simp [hφ.empty _ (Bool.eq_false_iff.2 h)]
  | cons s l ih =>
    rw [mergeLoop]
    split
    · next h =>
      obtain ⟨ha, hb⟩ := Seg.sameX_iff.1 h
      rw [ih]; simp only [hφ.add, segSum_cons, ha, hb]; ring
    · split
      · simp [ih]
      · next h => simp [ih, hφ.empty _ (Bool.eq_false_iff.2 h)]

theorem mergeScan_segSum (hφ : IsComp φ) (g : Pt → Pt → Int) (prev : Seg C) (l : List (Seg C)) :
    segSum φ g (mergeScan prev l) = φ prev.c * g prev.a prev.b + segSum φ g l := by
  induction l generalizing prev with
  | nil => simp [mergeScan]
  | cons s l ih =>
    rw [mergeScan]
    split
    · exact mergeLoop_segSum hφ g prev (s :: l)
    · simp [ih]

theorem mergeIfNeeded_segSum (hφ : IsComp φ) (g : Pt → Pt → Int) (l : List (Seg C)) :
    segSum φ g (mergeIfNeeded l) = segSum φ g l := by
  cases l with
  | nil => rfl
  | cons s l => simp [mergeIfNeeded, mergeScan_segSum hφ]

/-! ### edges of the merged list -/

theorem mergeLoop_edges (prev : Seg C) (l : List (Seg C)) :
    ∀ s ∈ mergeLoop prev l, ∃ t ∈ prev :: l, s.a = t.a ∧ s.b = t.b := by
  induction l generalizing prev with
  | nil =>
    intro s hs; rw [mergeLoop] at hs
    split at hs
    · exact ⟨prev, by simp, by simp at hs; simp [hs]⟩
    · simp at hs
  | cons u l ih =>
    intro s hs; rw [mergeLoop] at hs
    split at hs
    · next h =>
      obtain ⟨t, ht, e⟩ := ih _ s hs
      rcases List.mem_cons.1 ht with rfl | ht
      · exact ⟨prev, by simp, e⟩
      · exact ⟨t, by simp [ht], e⟩
    · split at hs
      · rcases List.mem_cons.1 hs with rfl | hs
        · exact ⟨s, by simp, rfl, rfl⟩
        · obtain ⟨t, ht, e⟩ := ih _ s hs; exact ⟨t, List.mem_cons_of_mem _ ht, e⟩
      · obtain ⟨t, ht, e⟩ := ih _ s hs; exact ⟨t, List.mem_cons_of_mem _ ht, e⟩

theorem mergeScan_edges (prev : Seg C) (l : List (Seg C)) :
    ∀ s ∈ mergeScan prev l, ∃ t ∈ prev :: l, s.a = t.a ∧ s.b = t.b := by
  induction l generalizing prev with
  | nil => intro s hs; exact ⟨s, by simpa [mergeScan] using hs, rfl, rfl⟩
  | cons u l ih =>
    intro s hs; rw [mergeScan] at hs
    split at hs
    · exact mergeLoop_edges _ _ s hs
    · rcases List.mem_cons.1 hs with rfl | hs
      · exact ⟨s, by simp, rfl, rfl⟩
      · obtain ⟨t, ht, e⟩ := ih _ s hs; exact ⟨t, List.mem_cons_of_mem _ ht, e⟩

theorem mergeIfNeeded_edges (l : List (Seg C)) :
    ∀ s ∈ mergeIfNeeded l, ∃ t ∈ l, s.a = t.a ∧ s.b = t.b := by
  cases l with
  | nil => intro s hs; simp [mergeIfNeeded] at hs
  | cons p l => exact mergeScan_edges p l

omit [WindingCount C] in
theorem Seg.lt_congr {s s' t t' : Seg C} (h1 : s.a = s'.a) (h2 : s.b = s'.b) (h3 : t.a = t'.a)
    (h4 : t.b = t'.b) : s.lt t ↔ s'.lt t' := by unfold Seg.lt; rw [h1, h2, h3, h4]

omit [WindingCount C] in
theorem Seg.le_congr {s s' t t' : Seg C} (h1 : s.a = s'.a) (h2 : s.b = s'.b) (h3 : t.a = t'.a)
    (h4 : t.b = t'.b) : s.le t = s'.le t' := by unfold Seg.le; rw [h1, h2, h3, h4]

theorem mergeLoop_sorted (prev : Seg C) (l : List (Seg C)) (h : SortedSegs (prev :: l)) :
    (mergeLoop prev l).Pairwise Seg.lt := by
  induction l generalizing prev with
  | nil => rw [mergeLoop]; split <;> simp
  | cons s l ih =>
    obtain ⟨h1, h2⟩ := List.pairwise_cons.1 h
    rw [mergeLoop]
    split
    · next hx =>
      apply ih
      refine List.pairwise_cons.2 ⟨?_, (List.pairwise_cons.1 h2).2⟩
      intro t ht
      exact (Seg.le_congr rfl rfl rfl rfl).trans (h1 t (List.mem_cons_of_mem _ ht))
    · next hx =>
      split
      · refine List.pairwise_cons.2 ⟨?_, ih s h2⟩
        intro t ht
        obtain ⟨u, hu, ea, eb⟩ := mergeLoop_edges s l t ht
        rw [Seg.lt_congr rfl rfl ea eb]
        have hps : prev.lt s := by
          rcases Seg.le_iff.1 (h1 s (by simp)) with h | h
          · exact h
          · exact absurd (Seg.sameX_iff.2 h) hx
        rcases List.mem_cons.1 hu with rfl | hu
        · exact hps
        · rcases Seg.le_iff.1 ((List.pairwise_cons.1 h2).1 u hu) with h | ⟨e1, e2⟩
          · exact Seg.lt_trans hps h
          · exact (Seg.lt_congr rfl rfl e1 e2).1 hps
      · exact ih s h2

theorem mergeScan_sorted (prev : Seg C) (l : List (Seg C)) (h : SortedSegs (prev :: l)) :
    (mergeScan prev l).Pairwise Seg.lt := by
  induction l generalizing prev with
  | nil => simp [mergeScan]
  | cons s l ih =>
    obtain ⟨h1, h2⟩ := List.pairwise_cons.1 h
    rw [mergeScan]
    split
    · exact mergeLoop_sorted prev (s :: l) h
    · next hx =>
      refine List.pairwise_cons.2 ⟨?_, ih s h2⟩
      intro t ht
      obtain ⟨u, hu, ea, eb⟩ := mergeScan_edges s l t ht
      rw [Seg.lt_congr rfl rfl ea eb]
      have hps : prev.lt s := by
        rcases Seg.le_iff.1 (h1 s (by simp)) with h | h
        · exact h
        · exact absurd (Seg.sameX_iff.2 h) hx
      rcases List.mem_cons.1 hu with rfl | hu
      · exact hps
      · rcases Seg.le_iff.1 ((List.pairwise_cons.1 h2).1 u hu) with h | ⟨e1, e2⟩
        · exact Seg.lt_trans hps h
        · exact (Seg.lt_congr rfl rfl e1 e2).1 hps

theorem mergeIfNeeded_sorted (l : List (Seg C)) (h : SortedSegs l) :
    (mergeIfNeeded l).Pairwise Seg.lt := by
  cases l with
  | nil => simp [mergeIfNeeded]
  | cons p l => exact mergeScan_sorted p l h

/-! ### non-empty counts -/

theorem mergeLoop_nonempty (prev : Seg C) (l : List (Seg C)) :
    ∀ s ∈ mergeLoop prev l, isNotEmpty s.c = true := by
  induction l generalizing prev with
  | nil => intro s hs; rw [mergeLoop] at hs; split at hs <;> simp_all
  | cons u l ih =>
    intro s hs; rw [mergeLoop] at hs
    split at hs
    · exact ih _ s hs
    · split at hs
      · rcases List.mem_cons.1 hs with rfl | hs
        · assumption
        · exact ih _ s hs
      · exact ih _ s hs

theorem mergeScan_nonempty (prev : Seg C) (l : List (Seg C))
    (h : ∀ s ∈ prev :: l, isNotEmpty s.c = true) :
    ∀ s ∈ mergeScan prev l, isNotEmpty s.c = true := by
  induction l generalizing prev with
  | nil => simpa [mergeScan] using h
  | cons u l ih =>
    intro s hs; rw [mergeScan] at hs
    split at hs
    · exact mergeLoop_nonempty _ _ s hs
    · rcases List.mem_cons.1 hs with rfl | hs
      · exact h s (by simp)
      · exact ih u (fun s hs => h s (List.mem_cons_of_mem _ hs)) s hs

theorem mergeIfNeeded_nonempty (l : List (Seg C)) (h : ∀ s ∈ l, isNotEmpty s.c = true) :
    ∀ s ∈ mergeIfNeeded l, isNotEmpty s.c = true := by
  cases l with
  | nil => intro s hs; simp [mergeIfNeeded] at hs
  | cons p l => exact mergeScan_nonempty p l h
end

/-! ### exact description of the merged list -/

section
variable [LawfulCount C]

/-- Total count of all entries of `l` lying on the edge `a b`. -/
def keySum (l : List (Seg C)) (a b : Pt) : C :=
  (l.filter fun s => decide (s.a = a ∧ s.b = b)).foldr (fun s acc => add s.c acc) zero

@[simp] theorem keySum_nil (a b : Pt) : keySum ([] : List (Seg C)) a b = zero := rfl

theorem keySum_cons (s : Seg C) (l : List (Seg C)) (a b : Pt) :
    keySum (s :: l) a b = if s.a = a ∧ s.b = b then add s.c (keySum l a b) else keySum l a b := by
  unfold keySum
  by_cases h : s.a = a ∧ s.b = b <;> simp [h]

theorem keySum_perm {l l' : List (Seg C)} (h : l.Perm l') (a b : Pt) :
    keySum l a b = keySum l' a b := by
  induction h with
  | nil => rfl
  | cons x _ ih => rw [keySum_cons, keySum_cons, ih]
  | swap x y l =>
    simp only [keySum_cons]
    split <;> split <;> try rfl
    rw [← LawfulCount.add_assoc', LawfulCount.add_comm' y.c x.c, LawfulCount.add_assoc']
  | trans _ _ ih1 ih2 => rw [ih1, ih2]

theorem keySum_eq_zero {l : List (Seg C)} {a b : Pt} (h : ∀ s ∈ l, ¬ (s.a = a ∧ s.b = b)) :
    keySum l a b = zero := by
  induction l with
  | nil => rfl
  | cons s l ih =>
    rw [keySum_cons, if_neg (h s (by simp)), ih fun t ht => h t (List.mem_cons_of_mem _ ht)]

theorem not_key_of_lt {p : Seg C} {l : List (Seg C)} (h : ∀ t ∈ l, p.lt t) :
    ∀ s ∈ l, ¬ (s.a = p.a ∧ s.b = p.b) := by
  rintro s hs ⟨e1, e2⟩
  exact Seg.lt_irrefl p ((Seg.lt_congr rfl rfl e1 e2).1 (h s hs))

theorem add_zero' (x : C) : add x zero = x := by
  rw [LawfulCount.add_comm', LawfulCount.zero_add']

theorem mergeLoop_mem (prev : Seg C) (l : List (Seg C)) (h : SortedSegs (prev :: l)) (s : Seg C) :
    s ∈ mergeLoop prev l ↔
      s.c = keySum (prev :: l) s.a s.b ∧ isNotEmpty s.c = true := by
  induction l generalizing prev with
  | nil =>
    rw [mergeLoop, keySum_cons, keySum_nil]
    constructor
    · intro hs
      split at hs
      · simp only [List.mem_cons, List.not_mem_nil, or_false] at hs
        subst hs; simp [add_zero']; assumption
      · simp at hs
    · rintro ⟨h1, h2⟩
      split at h1
      · next e =>
        rw [add_zero'] at h1
        rw [if_pos (by rw [← h1]; exact h2)]
        cases s; cases prev; simp_all
      · rw [h1, LawfulCount.isNotEmpty_iff'] at h2; exact absurd rfl h2
  | cons u l ih =>
    obtain ⟨h1, h2⟩ := List.pairwise_cons.1 h
    rw [mergeLoop]
    split
    · next hx =>
      obtain ⟨ea, eb⟩ := Seg.sameX_iff.1 hx
      rw [ih]
      · simp only [keySum_cons]
        by_cases he : prev.a = s.a ∧ prev.b = s.b
        · have he' : u.a = s.a ∧ u.b = s.b := by rw [← ea, ← eb]; exact he
          simp only [he, he', and_self, if_true]
          rw [LawfulCount.add_assoc']
        · have he' : ¬ (u.a = s.a ∧ u.b = s.b) := by rw [← ea, ← eb]; exact he
          simp only [he, he', if_false]
      · refine List.pairwise_cons.2 ⟨?_, (List.pairwise_cons.1 h2).2⟩
        intro t ht
        exact (Seg.le_congr rfl rfl rfl rfl).trans (h1 t (List.mem_cons_of_mem _ ht))
    · next hx =>
      have hps : ∀ t ∈ u :: l, prev.lt t := by
        have hpu : prev.lt u := by
          rcases Seg.le_iff.1 (h1 u (by simp)) with h | h
          · exact h
          · exact absurd (Seg.sameX_iff.2 h) hx
        intro t ht
        rcases List.mem_cons.1 ht with rfl | ht
        · exact hpu
        · rcases Seg.le_iff.1 ((List.pairwise_cons.1 h2).1 t ht) with h | ⟨e1, e2⟩
          · exact Seg.lt_trans hpu h
          · exact (Seg.lt_congr rfl rfl e1 e2).1 hpu
      have hnk := not_key_of_lt hps
      have key : ∀ s : Seg C, (prev.a = s.a ∧ prev.b = s.b) →
          keySum (u :: l) s.a s.b = zero := by
        rintro s ⟨e1, e2⟩; rw [← e1, ← e2]; exact keySum_eq_zero hnk
      by_cases he : prev.a = s.a ∧ prev.b = s.b
      · rw [keySum_cons, if_pos he, key s he, add_zero']
        have hnot : s ∉ mergeLoop u l := by
          intro hs
          obtain ⟨t, ht, e1, e2⟩ := mergeLoop_edges u l s hs
          exact hnk t ht ⟨by rw [← e1, he.1], by rw [← e2, he.2]⟩
        split
        · next hne =>
          constructor
          · intro hs
            rcases List.mem_cons.1 hs with rfl | hs
            · exact ⟨rfl, hne⟩
            · exact absurd hs hnot
          · rintro ⟨h3, _⟩
            rw [show s = prev by cases s; cases prev; simp_all]; simp
        · next hne =>
          constructor
          · intro hs; exact absurd hs hnot
          · rintro ⟨h3, h4⟩; rw [h3] at h4; exact absurd h4 hne
      · have hsp : s ≠ prev := by rintro rfl; exact he ⟨rfl, rfl⟩
        rw [keySum_cons, if_neg he, ← ih u h2]
        split
        · simp [hsp]
        · rfl

theorem mergeScan_mem (prev : Seg C) (l : List (Seg C)) (h : SortedSegs (prev :: l))
    (hne : ∀ s ∈ prev :: l, isNotEmpty s.c = true) (s : Seg C) :
    s ∈ mergeScan prev l ↔
      s.c = keySum (prev :: l) s.a s.b ∧ isNotEmpty s.c = true := by
  induction l generalizing prev with
  | nil =>
    have := mergeLoop_mem prev [] h s
    rw [← this, mergeScan, mergeLoop, if_pos (hne prev (by simp))]
  | cons u l ih =>
    obtain ⟨h1, h2⟩ := List.pairwise_cons.1 h
    rw [mergeScan]
    split
    · exact mergeLoop_mem prev (u :: l) h s
    · next hx =>
      have := mergeLoop_mem prev (u :: l) h s
      rw [← this, mergeLoop, if_neg hx, if_pos (hne prev (by simp)), List.mem_cons, List.mem_cons,
        ih u h2 (fun s hs => hne s (List.mem_cons_of_mem _ hs)), mergeLoop_mem u l h2]

theorem mergeIfNeeded_mem (l : List (Seg C)) (h : SortedSegs l)
    (hne : ∀ s ∈ l, isNotEmpty s.c = true) (s : Seg C) :
    s ∈ mergeIfNeeded l ↔ s.c = keySum l s.a s.b ∧ isNotEmpty s.c = true := by
  cases l with
  | nil =>
    simp only [mergeIfNeeded, List.not_mem_nil, keySum_nil, false_iff]
    rintro ⟨h1, h2⟩
    rw [h1, LawfulCount.isNotEmpty_iff'] at h2; exact h2 rfl
  | cons p l => exact mergeScan_mem p l h hne s

theorem strictSorted_ext {l l' : List (Seg C)} (h : l.Pairwise Seg.lt) (h' : l'.Pairwise Seg.lt)
    (hm : ∀ s, s ∈ l ↔ s ∈ l') : l = l' := by
  have nd : l.Nodup := h.imp (S := fun a b => a ≠ b) (fun {a b} hab e => Seg.lt_irrefl a (by rw [← e] at hab; exact hab))
  have nd' : l'.Nodup := h'.imp (S := fun a b => a ≠ b) (fun {a b} hab e => Seg.lt_irrefl a (by rw [← e] at hab; exact hab))
  have hp : l.Perm l' := (List.perm_ext_iff_of_nodup nd nd').2 hm
  exact hp.eq_of_pairwise (fun a b _ _ h1 h2 => absurd (Seg.lt_trans h1 h2) (Seg.lt_irrefl a)) h h'

/-- Whatever sort is used, merging gives the same list. -/
theorem mergeIfNeeded_perm {l l' : List (Seg C)} (hp : l.Perm l') (h : SortedSegs l)
    (h' : SortedSegs l') (hne : ∀ s ∈ l, isNotEmpty s.c = true) :
    mergeIfNeeded l = mergeIfNeeded l' := by
  apply strictSorted_ext (mergeIfNeeded_sorted l h) (mergeIfNeeded_sorted l' h')
  intro s
  rw [mergeIfNeeded_mem l h hne, mergeIfNeeded_mem l' h' (fun s hs => hne s (hp.mem_iff.2 hs)),
    keySum_perm hp]
end

end IOverlay
