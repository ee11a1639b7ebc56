/-
Properties of sorting and merging: C08, C09.
-/
import Verif.Props.Build

namespace IOverlay
open WindingCount

/-- Sum of a component over the stored segments that coincide with the edge `a b`. -/
def coincidentSum {C : Type} (φ : C → Int) (l : List (Seg C)) (a b : Pt) : Int :=
  ((l.filter fun s => decide (s.a = a ∧ s.b = b)).map fun s => φ s.c).sum

theorem keySum_comp {C : Type} [LawfulCount C] {φ : C → Int} (hφ : IsComp φ) (l : List (Seg C))
    (a b : Pt) : φ (keySum l a b) = coincidentSum φ l a b := by
  induction l with
  | nil => exact hφ.zero
  | cons s l ih =>
    rw [keySum_cons]; unfold coincidentSum
    by_cases h : s.a = a ∧ s.b = b
    · simp only [h, and_self, if_true, decide_true, List.filter_cons_of_pos, List.map_cons,
        List.sum_cons]
      rw [hφ.add, ih]; rfl
    · simp only [h, if_false, decide_false, Bool.false_eq_true, not_false_eq_true,
        List.filter_cons_of_neg]
      exact ih

theorem CountBool.isNotEmpty_iff (c : CountBool) :
    isNotEmpty c = true ↔ c.subj ≠ 0 ∨ c.clip ≠ 0 := by simp [isNotEmpty]

/-- Every entry an input contour produces has a non-zero count. -/
theorem appendContour_nonempty (st : ShapeType) (pts : List Pt) :
    ∀ s ∈ (appendContour st pts : List (Seg CountBool)), isNotEmpty s.c = true := by
  have hw : ∀ u v : Pt, isNotEmpty (withAB u v (ofShape (C := CountBool) st).1
      (ofShape (C := CountBool) st).2).c = true := by
    intro u v; unfold withAB; split <;> cases st <;> rfl
  have hm : ∀ (p0 p1 : Pt) (r : List Pt), ∀ s ∈ (mainLoop (ofShape (C := CountBool) st).1
      (ofShape (C := CountBool) st).2 p0 p1 r).1, isNotEmpty s.c = true := by
    intro p0 p1 r
    induction r generalizing p0 p1 with
    | nil => simp [mainLoop]
    | cons p r ih =>
      rw [mainLoop]; split
      · exact ih _ _
      · intro s hs
        rcases List.mem_cons.1 hs with rfl | hs
        · exact hw _ _
        · exact ih _ _ s hs
  match pts with
  | [] => simp [appendContour, appendPath]
  | [p] => simp [appendContour, appendPath]
  | q0 :: p1 :: rest =>
    intro s hs
    simp only [appendContour, appendPath, List.mem_append] at hs
    rcases hs with hs | hs
    · exact hm _ _ _ s hs
    · unfold closePath at hs
      split at hs <;> (try split at hs) <;> simp at hs <;>
        (try (rcases hs with rfl | rfl | rfl)) <;> exact hw _ _

theorem overlaySegments_nonempty (subj clip : List (List Pt)) :
    ∀ s ∈ (overlaySegments subj clip : List (Seg CountBool)), isNotEmpty s.c = true := by
  intro s hs
  simp only [overlaySegments, List.mem_append, List.mem_flatMap] at hs
  rcases hs with ⟨c, _, h⟩ | ⟨c, _, h⟩ <;> exact appendContour_nonempty _ c s h

/-- C08 (boolean counts): merging a sorted list of segments, each with a non-zero count, yields a
strictly sorted list (hence one entry per edge) whose entries are exactly the edges whose summed
counts are not both zero, carrying those sums. -/
theorem C08_merge (l : List (Seg CountBool)) (h : SortedSegs l)
    (hne : ∀ s ∈ l, s.c.subj ≠ 0 ∨ s.c.clip ≠ 0) :
    (mergeIfNeeded l).Pairwise Seg.lt ∧
    ∀ s : Seg CountBool, s ∈ mergeIfNeeded l ↔
      s.c.subj = coincidentSum CountBool.subj l s.a s.b ∧
      s.c.clip = coincidentSum CountBool.clip l s.a s.b ∧
      (s.c.subj ≠ 0 ∨ s.c.clip ≠ 0) := by
  refine ⟨mergeIfNeeded_sorted l h, fun s => ?_⟩
  rw [mergeIfNeeded_mem l h (fun s hs => (CountBool.isNotEmpty_iff s.c).2 (hne s hs)),
    CountBool.isNotEmpty_iff, ← keySum_comp isComp_subj, ← keySum_comp isComp_clip, ← and_assoc]
  refine and_congr_left fun _ => ?_
  constructor
  · intro e; rw [e]; exact ⟨rfl, rfl⟩
  · rintro ⟨e1, e2⟩
    have : ∀ x y : CountBool, x.subj = y.subj → x.clip = y.clip → x = y := by
      rintro ⟨⟩ ⟨⟩ h1 h2; simp_all
    exact this _ _ e1 e2

/-- C08, string counts: sums of subject counts, union of direction flags. -/
theorem C08_merge_string (l : List (Seg CountStr)) (h : SortedSegs l)
    (hne : ∀ s ∈ l, s.c.subj ≠ 0 ∨ s.c.back = true ∨ s.c.fwd = true) :
    (mergeIfNeeded l).Pairwise Seg.lt ∧
    ∀ s : Seg CountStr, s ∈ mergeIfNeeded l ↔
      s.c.subj = coincidentSum CountStr.subj l s.a s.b ∧
      (s.c.back = true ↔ ∃ t ∈ l, t.a = s.a ∧ t.b = s.b ∧ t.c.back = true) ∧
      (s.c.fwd = true ↔ ∃ t ∈ l, t.a = s.a ∧ t.b = s.b ∧ t.c.fwd = true) ∧
      (s.c.subj ≠ 0 ∨ s.c.back = true ∨ s.c.fwd = true) := by
  have ne : ∀ c : CountStr, isNotEmpty c = true ↔ c.subj ≠ 0 ∨ c.back = true ∨ c.fwd = true := by
    intro c; simp [isNotEmpty]
  have kb : ∀ (l : List (Seg CountStr)) a b, (keySum l a b).back = true ↔
      ∃ t ∈ l, t.a = a ∧ t.b = b ∧ t.c.back = true := by
    intro l a b
    induction l with
    | nil => simp [keySum, zero]
    | cons s l ih =>
      rw [keySum_cons]
      by_cases h : s.a = a ∧ s.b = b
      · rw [if_pos h]
        have : (add s.c (keySum l a b)).back = (s.c.back || (keySum l a b).back) := rfl
        rw [this, Bool.or_eq_true, ih]; simp [h.1, h.2]
      · rw [if_neg h, ih]
        constructor
        · rintro ⟨t, ht, h'⟩; exact ⟨t, by simp [ht], h'⟩
        · rintro ⟨t, ht, h1, h2, h3⟩
          rcases List.mem_cons.1 ht with rfl | ht
          · exact absurd ⟨h1, h2⟩ h
          · exact ⟨t, ht, h1, h2, h3⟩
  have kf : ∀ (l : List (Seg CountStr)) a b, (keySum l a b).fwd = true ↔
      ∃ t ∈ l, t.a = a ∧ t.b = b ∧ t.c.fwd = true := by
    intro l a b
    induction l with
    | nil => simp [keySum, zero]
    | cons s l ih =>
      rw [keySum_cons]
      by_cases h : s.a = a ∧ s.b = b
      · rw [if_pos h]
        have : (add s.c (keySum l a b)).fwd = (s.c.fwd || (keySum l a b).fwd) := rfl
        rw [this, Bool.or_eq_true, ih]; simp [h.1, h.2]
      · rw [if_neg h, ih]
        constructor
        · rintro ⟨t, ht, h'⟩; exact ⟨t, by simp [ht], h'⟩
        · rintro ⟨t, ht, h1, h2, h3⟩
          rcases List.mem_cons.1 ht with rfl | ht
          · exact absurd ⟨h1, h2⟩ h
          · exact ⟨t, ht, h1, h2, h3⟩
  refine ⟨mergeIfNeeded_sorted l h, fun s => ?_⟩
  rw [mergeIfNeeded_mem l h (fun s hs => (ne s.c).2 (hne s hs)), ne, ← keySum_comp isComp_strSubj,
    ← kb, ← kf]
  have : ∀ x y : CountStr, x = y ↔ x.subj = y.subj ∧ (x.back = true ↔ y.back = true) ∧
      (x.fwd = true ↔ y.fwd = true) := by
    rintro ⟨x1, x2, x3⟩ ⟨y1, y2, y3⟩
    simp only [CountStr.mk.injEq]
    rw [Bool.eq_iff_iff, Bool.eq_iff_iff (a := x3)]
  rw [this]; tauto

/-- C08 for the pipeline: the edge list after ingestion, sorting and merging. -/
theorem C08_overlay (subj clip : List (List Pt)) (s : Seg CountBool) :
    s ∈ mergeIfNeeded (sortSegs (overlaySegments subj clip)) ↔
      s.c.subj = coincidentSum CountBool.subj (overlaySegments subj clip) s.a s.b ∧
      s.c.clip = coincidentSum CountBool.clip (overlaySegments subj clip) s.a s.b ∧
      (s.c.subj ≠ 0 ∨ s.c.clip ≠ 0) := by
  have hp := sortSegs_perm (overlaySegments subj clip : List (Seg CountBool))
  have hs : ∀ φ : CountBool → Int, coincidentSum φ (sortSegs (overlaySegments subj clip)) s.a s.b =
      coincidentSum φ (overlaySegments subj clip) s.a s.b := by
    intro φ; unfold coincidentSum
    exact ((hp.filter _).map _).sum_eq
  rw [(C08_merge _ (sortSegs_sorted _) (fun s h => (CountBool.isNotEmpty_iff s.c).1
    (overlaySegments_nonempty subj clip s (hp.mem_iff.1 h)))).2 s, hs, hs]

/-- Two squares sharing a side, opposite orientation on it: the common edge cancels. -/
example : (mergeIfNeeded (sortSegs (overlaySegments
    [[⟨0, 0⟩, ⟨1, 0⟩, ⟨1, 1⟩, ⟨0, 1⟩], [⟨1, 0⟩, ⟨2, 0⟩, ⟨2, 1⟩, ⟨1, 1⟩]] [])
      : List (Seg CountBool))).length = 6 := by
  decide

/-- C09: whatever the order in which the contours are added, and whichever correct sort (stable or
not, serial or parallel) is used - `l` and `l'` being its outputs - the merged edge list is the
same. -/
theorem C09_order_independent (subj subj' clip clip' : List (List Pt)) (hs : subj.Perm subj')
    (hc : clip.Perm clip') (l l' : List (Seg CountBool))
    (hl : l.Perm (overlaySegments subj clip)) (hl' : l'.Perm (overlaySegments subj' clip'))
    (hsl : SortedSegs l) (hsl' : SortedSegs l') :
    mergeIfNeeded l = mergeIfNeeded l' := by
  have hp : (overlaySegments subj clip : List (Seg CountBool)).Perm (overlaySegments subj' clip') :=
    (hs.flatMap_right _).append (hc.flatMap_right _)
  refine mergeIfNeeded_perm (hl.trans (hp.trans hl'.symm)) hsl hsl' ?_
  intro s h
  exact overlaySegments_nonempty subj clip s (hl.mem_iff.1 h)

/-- Also when subject and clip contours are added interleaved. -/
theorem C09_interleaved (cs cs' : List (ShapeType × List Pt)) (h : cs.Perm cs')
    (l l' : List (Seg CountBool))
    (hl : l.Perm (cs.flatMap fun c => appendContour c.1 c.2))
    (hl' : l'.Perm (cs'.flatMap fun c => appendContour c.1 c.2))
    (hsl : SortedSegs l) (hsl' : SortedSegs l') :
    mergeIfNeeded l = mergeIfNeeded l' := by
  refine mergeIfNeeded_perm (hl.trans ((h.flatMap_right _).trans hl'.symm)) hsl hsl' ?_
  intro s hs
  obtain ⟨c, _, hc⟩ := List.mem_flatMap.1 (hl.mem_iff.1 hs)
  exact appendContour_nonempty _ _ s hc

/-- The hypotheses are met by the model's sort. -/
example (subj clip : List (List Pt)) :
    (sortSegs (overlaySegments subj clip : List (Seg CountBool))).Perm (overlaySegments subj clip) ∧
    SortedSegs (sortSegs (overlaySegments subj clip : List (Seg CountBool))) :=
  ⟨sortSegs_perm _, sortSegs_sorted _⟩

end IOverlay
