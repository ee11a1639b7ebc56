/-
C45: the splitting phase never accesses memory out of bounds, and the bucketed implementation of splitting computes the
same edges as the plain description used in the other theorems.
-/
import Verif.ApplyLemmas
import Verif.Props.Bounds

namespace IOverlay

open WindingCount

variable {C : Type}

/-- How a run of the code ends: with a result, by running out of the model's fuel, or by an access out of bounds
(undefined behaviour for the unchecked accesses, a panic for the others). -/
inductive Outcome (α : Type) where
  | done (a : α)
  | outOfFuel
  | fault
deriving DecidableEq, Repr

/-- A step that may fault, followed by the rest of the run. -/
def Outcome.step {α β : Type} (o : Option α) (f : α → Outcome β) : Outcome β :=
  match o with
  | none => .fault
  | some a => f a

/-- A run which cannot fault. -/
def Outcome.ofFuel {α : Type} : Option α → Outcome α
  | some a => .done a
  | none => .outOfFuel

/-- `list_split` and `tree_split` with the implementation of `apply`; split/solver_list.rs:7-50,
split/solver_tree.rs:25-86 (see `splitLoop`). -/
def splitLoopImpl [WindingCount C] (x : ApplyExt C) (st : Strategy) (tree : TreeOracle C) :
    Nat → Mode → SnapRadius → List (Seg C) → Outcome (List (Seg C))
  | 0, _, _, _ => .outOfFuel
  | n + 1, .list, sr, segs =>
    if segs.length ≤ 1 then .done segs
    else
      let r := roundMarks sr.radius (listPairs segs)
      if r.1.isEmpty then .done segs
      else
        .step (applyImpl x r.1 segs) fun segs' =>
          if r.2 then
            if isListSplit st segs'.length then splitLoopImpl x st tree n .list sr.increment segs'
            else splitLoopImpl x st tree n .tree sr.increment segs'
          else .done segs'
  | n + 1, .tree, sr, segs =>
    if tree.canBuild segs then splitLoopImpl x st tree n .treeLoop sr segs
    else splitLoopImpl x st tree n .list sr segs
  | n + 1, .treeLoop, sr, segs =>
    if segs.length ≤ 2 then .done segs
    else
      let r := roundMarks sr.radius (tree.pairs segs)
      if r.1.isEmpty then .done segs
      else
        .step (applyImpl x r.1 segs) fun segs' =>
          if r.2 then splitLoopImpl x st tree n .treeLoop sr.increment segs' else .done segs'

/-- `FragmentBuffer::insert`, split/grid_layout.rs:48-51: unchecked access to the group. -/
def insertFragment (gs : List (List Fragment)) (f : Nat × Fragment) : Option (List (List Fragment)) :=
  match gs[f.1]? with
  | none => none
  | some l => some (gs.set f.1 (l ++ [f.2]))

/-- Adding all fragments, split/solver_fragment.rs:30-32. -/
def insertAll : List (List Fragment) → List (Nat × Fragment) → Option (List (List Fragment))
  | gs, [] => some gs
  | gs, f :: fs => (insertFragment gs f).bind fun gs' => insertAll gs' fs

/-- One round with the groups filled by unchecked inserts, split/solver_fragment.rs:29-47 (see `fragRound`). -/
def fragRoundImpl (g : Grid) (radius : Int) (segs : List (Seg C)) : Option (List Mark × Bool) :=
  (insertAll (List.replicate g.size []) (allFragments g segs)).map fun gs =>
    let r := serialSplit radius gs
    (r.1 ++ (gs.zipIdx.flatMap fun fs => onBorderSplit (g.pos fs.2) fs.1 (borders g segs fs.2)), r.2)

/-- The loop of `fragment_split`, split/solver_fragment.rs:27-59 (see `fragLoop`). -/
def fragLoopImpl [WindingCount C] (x : ApplyExt C) (g : Grid) : Nat → SnapRadius → List (Seg C) → Outcome (List (Seg C))
  | 0, _, _ => .outOfFuel
  | n + 1, sr, segs =>
    if segs.length ≤ 2 then .done segs
    else
      .step (fragRoundImpl g sr.radius segs) fun r =>
        if r.1.isEmpty then .done segs
        else
          .step (applyImpl x r.1 segs) fun segs' =>
            if r.2 then fragLoopImpl x g n sr.increment segs' else .done segs'

/-- `split_segments` and `SplitSolver::split`, split/solver.rs:19-55, with the implementations above (see
`splitSegments`). -/
def splitSegmentsImpl [WindingCount C] (x : ApplyExt C) (st : Strategy) (sr : SnapRadius) (tree : TreeOracle C) (fuel : Nat)
    (segs : List (Seg C)) : Outcome (List (Seg C)) :=
  let segs := mergeIfNeeded (x.sortS segs)
  if isListSplit st segs.length then splitLoopImpl x st tree fuel .list sr segs
  else if isFragmentation st segs.length then
    match Grid.new segs with
    | none => splitLoopImpl x st tree fuel .tree sr segs
    | some g => fragLoopImpl x g fuel sr segs
  else splitLoopImpl x st tree fuel .tree sr segs

/-! ### proofs -/

theorem insertAll_eq (n : Nat) : ∀ (fs : List (Nat × Fragment)) (F : Nat → List Fragment), (∀ f ∈ fs, f.1 < n) →
    insertAll ((List.range n).map F) fs = some ((List.range n).map fun b => F b ++ groupOf fs b) := by
  intro fs
  induction fs with
  | nil => intro F _; simp [insertAll, groupOf]
  | cons f fs ih =>
    intro F h
    have hk := h f (by simp)
    rw [insertAll, insertFragment, List.getElem?_map, List.getElem?_range hk]
    dsimp only [Option.map_some, Option.bind_some]
    have := map_range_set F (fun b => if b = f.1 then F b ++ [f.2] else F b) (n := n) (k := f.1)
      (by intro b hb; rw [if_neg hb])
    simp only [if_true] at this
    rw [this, ih _ fun f' hf' => h f' (by simp [hf'])]
    congr 1
    apply List.map_congr_left
    intro b _
    unfold groupOf
    by_cases hb : b = f.1
    · subst hb; simp
    · simp [hb, Ne.symm hb]

/-- Every fragment goes to an existing group. -/
theorem allFragments_lt {g : Grid} {segs : List (Seg C)} (h : InGrid g segs) : ∀ f ∈ allFragments g segs, f.1 < g.size := by
  intro f hf
  obtain ⟨s, hs, hf⟩ := List.mem_flatMap.1 hf
  have hs' : s.1 ∈ segs := List.fst_mem_of_mem_zipIdx hs
  have h1 := (addSegment_spec g s.2 s.1.x (h.lt _ hs') (h.left _ hs')).1
  have hm := List.mem_map_of_mem (f := Prod.fst) hf
  rw [h1, List.mem_range'_1] at hm
  have hlt := Pt.lt_def.1 (h.lt _ hs')
  have hr := h.right _ hs'
  have e1 := g.index_lt_size (x := s.1.a.x) (by omega)
  have e2 := g.index_lt_size (x := s.1.b.x - 1) (by omega)
  unfold lastColumn at hm
  have e3 : s.1.x.a = s.1.a := rfl
  have e4 : s.1.x.b = s.1.b := rfl
  rw [e3, e4] at hm
  omega

theorem fragRoundImpl_eq {g : Grid} {segs : List (Seg C)} (h : InGrid g segs) (radius : Int) :
    fragRoundImpl g radius segs = some (fragRound g radius segs) := by
  unfold fragRoundImpl
  have e : List.replicate g.size ([] : List Fragment) = (List.range g.size).map fun _ => [] := by
    rw [List.map_const', List.length_range]
  rw [e, insertAll_eq _ _ _ (allFragments_lt h)]
  simp only [List.nil_append, Option.map_some]
  rfl

section
variable [LawfulCount C] (hinv : ∀ c : C, isNotEmpty c = true → isNotEmpty (invert c) = true)
include hinv

omit hinv [LawfulCount C] in
/-- The box of everything right of the first edge. -/
theorem headBox {segs : List (Seg C)} (h : InBox rangeBox segs) {s0 : Seg C} (h0 : s0 ∈ segs.head?) :
    Boxed ⟨s0.a.x, 2 ^ 30, -2 ^ 30, 2 ^ 30⟩ segs := by
  cases segs with
  | nil => simp at h0
  | cons t rest =>
    simp at h0; subst h0
    intro s hs
    have h1 := h.lt s hs
    rw [Pt.lt_def] at h1
    have h2 := h.range s hs
    unfold InRange at h2
    have h3 : t.a.x ≤ s.a.x := by
      rcases List.mem_cons.1 hs with rfl | hs
      · omega
      · have := (List.pairwise_cons.1 h.sorted).1 s hs
        unfold Seg.lt at this
        rcases this with h | ⟨h, -⟩
        · rw [Pt.lt_def] at h; omega
        · rw [h]
    unfold Box.HasSeg Box.Has
    dsimp only
    omega

/-- One application in a round over pairs containing all meeting edges. -/
theorem apply_round {x : ApplyExt C} (hx : x.Ok) {segs : List (Seg C)} (h : InBox rangeBox segs)
    (hc : ∀ s ∈ segs, isNotEmpty s.c = true) {pairs : List EPair} (hp : Covers pairs segs) {radius : Int} (hr : 0 ≤ radius)
    {marks : List Mark} (hm : ∀ m ∈ marks, m ∈ (roundMarks radius pairs).1) (hne : ¬ marks.isEmpty = true) :
    applyImpl x marks segs = some (applyMarks marks segs) := by
  refine applyImpl_eq hinv hx (by simpa using hne) h.sorted h.lt hc ?_ ?_
  · intro m hm'
    obtain ⟨s, h1, -⟩ := roundMarks_ne h.lt hp hr (hm m hm')
    exact (List.getElem?_eq_some_iff.1 h1).1
  · intro m hm' s hs
    have := roundMarks_box h.lt hp hr (headBox h hs) h.range m (hm m hm')
    exact this.1

theorem splitLoopImpl_eq {x : ApplyExt C} (hx : x.Ok) (st : Strategy) (tree : TreeOracle C) (ht : tree.Ok) (n : Nat) (mode : Mode)
    (sr : SnapRadius) (segs : List (Seg C)) (h : InBox rangeBox segs) (hc : ∀ s ∈ segs, isNotEmpty s.c = true) :
    splitLoopImpl x st tree n mode sr segs = .ofFuel (splitLoop st tree n mode sr segs) := by
  induction n generalizing mode sr segs with
  | zero => cases mode <;> rfl
  | succ n ih =>
    cases mode with
    | list =>
      have hcov := listPairs_covers segs (sorted_of_strict h.sorted) h.lt
      have hn := h.round hcov sr.radius_nonneg
      rw [splitLoop, splitLoopImpl]
      dsimp only
      split
      · rfl
      · split
        · rfl
        · rename_i hne
          rw [apply_round hinv hx h hc hcov sr.radius_nonneg (fun _ hm => hm) hne, Outcome.step]
          have hc' := applyMarks_nonempty hinv (roundMarks sr.radius (listPairs segs)).1 segs hc
          try dsimp only
          split
          · split
            · exact ih _ _ _ hn hc'
            · exact ih _ _ _ hn hc'
          · rfl
    | tree =>
      rw [splitLoop, splitLoopImpl]
      split
      · exact ih _ _ _ h hc
      · exact ih _ _ _ h hc
    | treeLoop =>
      have hcov := ht segs h.sorted h.lt
      have hn := h.round hcov sr.radius_nonneg
      rw [splitLoop, splitLoopImpl]
      dsimp only
      split
      · rfl
      · split
        · rfl
        · rename_i hne
          rw [apply_round hinv hx h hc hcov sr.radius_nonneg (fun _ hm => hm) hne, Outcome.step]
          have hc' := applyMarks_nonempty hinv (roundMarks sr.radius (tree.pairs segs)).1 segs hc
          try dsimp only
          split
          · exact ih _ _ _ hn hc'
          · rfl

theorem fragLoopImpl_eq {x : ApplyExt C} (hx : x.Ok) (g : Grid) (n : Nat) (sr : SnapRadius) (segs : List (Seg C))
    (h : FragState g segs) (hc : ∀ s ∈ segs, isNotEmpty s.c = true) :
    fragLoopImpl x g n sr segs = .ofFuel (fragLoop g n sr segs) := by
  induction n generalizing sr segs with
  | zero => rfl
  | succ n ih =>
    rw [fragLoop, fragLoopImpl]
    dsimp only
    split
    · rfl
    · rw [fragRoundImpl_eq h.inGrid, Outcome.step]
      try dsimp only
      split
      · rfl
      · rename_i hne
        have hcov := listPairs_covers segs (sorted_of_strict h.sorted) h.inGrid.lt
        have hb : InBox rangeBox segs := ⟨h.sorted, h.inGrid.lt, h.range, fun s hs =>
          ⟨(rangeBox_has _).2 (h.range s hs).1, (rangeBox_has _).2 (h.range s hs).2⟩⟩
        rw [apply_round hinv hx hb hc hcov sr.radius_nonneg
          (fragRound_sound hcov h.inGrid h.sorted sr.radius_nonneg).1 hne, Outcome.step]
        have hc' := applyMarks_nonempty hinv (fragRound g sr.radius segs).1 segs hc
        try dsimp only
        split
        · exact ih _ _ (h.next sr.radius_nonneg) hc'
        · rfl

theorem splitSegmentsImpl_eq {x : ApplyExt C} (hx : x.Ok) (st : Strategy) (sr : SnapRadius) (tree : TreeOracle C) (ht : tree.Ok)
    (fuel : Nat) (segs : List (Seg C)) (hl : ∀ s ∈ segs, s.a < s.b) (hr : ∀ s ∈ segs, InRange s.a ∧ InRange s.b)
    (hc : ∀ s ∈ segs, isNotEmpty s.c = true) :
    splitSegmentsImpl x st sr tree fuel segs = .ofFuel (splitSegments st sr tree fuel segs) := by
  unfold splitSegmentsImpl splitSegments
  rw [mergeIfNeeded_perm ((hx.sortS.perm segs).trans (sortSegs_perm segs).symm) (hx.sortS.sorted _) (sortSegs_sorted _)
    fun s hs => hc s ((hx.sortS.perm segs).mem_iff.1 hs)]
  have h0 : InBox rangeBox (mergeIfNeeded (sortSegs segs)) := by
    have := start_ends (P := InRange) hr
    exact ⟨start_sorted _, start_lt hl, this, fun s hs => ⟨(rangeBox_has _).2 (this s hs).1, (rangeBox_has _).2 (this s hs).2⟩⟩
  have hc0 := start_nonempty hc
  dsimp only
  split
  · exact splitLoopImpl_eq hinv hx st tree ht _ _ _ _ h0 hc0
  · split
    · unfold fragSplit
      cases hg : Grid.new (mergeIfNeeded (sortSegs segs)) with
      | none => exact splitLoopImpl_eq hinv hx st tree ht _ _ _ _ h0 hc0
      | some g =>
        exact fragLoopImpl_eq hinv hx g fuel sr _ ⟨h0.sorted, Grid.new_inGrid h0.sorted h0.lt hg, h0.range⟩ hc0
    · exact splitLoopImpl_eq hinv hx st tree ht _ _ _ _ h0 hc0

end

/-- C45 (boolean overlays): splitting never accesses memory out of bounds — it is not a fault, and only the model's
fuel can keep it from returning — and the bucketed implementation returns the edges of the plain description, for every
sort and bin layout. -/
theorem C45_memory_safe (x : ApplyExt CountBool) (hx : x.Ok) (st : Strategy) (sr : SnapRadius) (tree : TreeOracle CountBool)
    (ht : tree.Ok) (fuel : Nat) (subj clip : List (List Pt)) (hin : ∀ c ∈ subj ++ clip, ∀ p ∈ c, InRange p) :
    splitSegmentsImpl x st sr tree fuel (overlaySegments subj clip) ≠ .fault ∧
    ∀ r, splitSegmentsImpl x st sr tree fuel (overlaySegments subj clip) = .done r ↔
      splitSegments st sr tree fuel (overlaySegments subj clip) = some r := by
  rw [splitSegmentsImpl_eq CountBool.invert_nonempty hx st sr tree ht fuel _ (overlaySegments_lt subj clip)
    (overlaySegments_ends hin) (overlaySegments_nonempty subj clip)]
  cases splitSegments st sr tree fuel (overlaySegments subj clip : List (Seg CountBool)) <;> simp [Outcome.ofFuel]

/-- C45 (lines). -/
theorem C45_memory_safe_string (x : ApplyExt CountStr) (hx : x.Ok) (st : Strategy) (sr : SnapRadius) (tree : TreeOracle CountStr)
    (ht : tree.Ok) (fuel : Nat) (shape paths contours : List (List Pt))
    (hin : ∀ c ∈ shape ++ paths ++ contours, ∀ p ∈ c, InRange p) :
    splitSegmentsImpl x st sr tree fuel (stringSegments shape paths contours) ≠ .fault ∧
    ∀ r, splitSegmentsImpl x st sr tree fuel (stringSegments shape paths contours) = .done r ↔
      splitSegments st sr tree fuel (stringSegments shape paths contours) = some r := by
  rw [splitSegmentsImpl_eq CountStr.invert_nonempty hx st sr tree ht fuel _ (stringSegments_lt shape paths contours)
    (stringSegments_ends hin) (stringSegments_nonempty shape paths contours)]
  cases splitSegments st sr tree fuel (stringSegments shape paths contours) <;> simp [Outcome.ofFuel]

/-! ### The contracts can be met -/

def insertMark (m : Mark) : List Mark → List Mark
  | [] => [m]
  | n :: l => if n.index < m.index ∨ (n.index = m.index ∧ n.point < m.point) then n :: insertMark m l else m :: n :: l

def sortMarks (l : List Mark) : List Mark := l.foldr insertMark []

theorem insertMark_perm (m : Mark) (l : List Mark) : (insertMark m l).Perm (m :: l) := by
  induction l with
  | nil => exact List.Perm.refl _
  | cons n l ih =>
    unfold insertMark
    split
    · exact (ih.cons n).trans (List.Perm.swap _ _ _)
    · exact List.Perm.refl _

theorem insertMark_sorted (m : Mark) (l : List Mark) (h : l.Pairwise fun m n => ¬ n.lt m) :
    (insertMark m l).Pairwise fun m n => ¬ n.lt m := by
  induction l with
  | nil => exact List.pairwise_singleton _ _
  | cons n l ih =>
    obtain ⟨h1, h2⟩ := List.pairwise_cons.1 h
    unfold insertMark
    split
    · rename_i hlt
      refine List.pairwise_cons.2 ⟨?_, ih h2⟩
      intro k hk
      rcases List.mem_cons.1 ((insertMark_perm m l).mem_iff.1 hk) with rfl | hk
      · intro h'; exact Mark.lt_irrefl _ (Mark.lt_trans hlt h')
      · exact h1 k hk
    · rename_i hlt
      have hnm : ¬ n.lt m := hlt
      refine List.pairwise_cons.2 ⟨?_, h⟩
      intro k hk hkm
      rcases List.mem_cons.1 hk with rfl | hk
      · exact hnm hkm
      · have := h1 k hk
        by_cases hnk : n.lt k
        · exact hnm (Mark.lt_trans hnk hkm)
        · rw [← Mark.eq_of_not_lt this hnk] at hnm; exact hnm hkm

/-- Sorts by insertion, bins of width 4. -/
def exApply (C : Type) : ApplyExt C := ⟨sortMarks, sortSegs, fun lo _ _ => some fun v => ((v - lo) / 4).toNat⟩

theorem exApply_ok (C : Type) : (exApply C).Ok where
  sortM := by
    refine ⟨?_, ?_⟩
    · intro l
      induction l with
      | nil => exact List.Perm.refl _
      | cons m l ih => exact (insertMark_perm m _).trans (ih.cons m)
    · intro l
      induction l with
      | nil => exact List.Pairwise.nil
      | cons m l ih => exact insertMark_sorted m _ ih
  sortS := ⟨sortSegs_perm, sortSegs_sorted⟩
  layout := by
    intro lo hi n idx h u v h1 h2 h3
    have := Option.some.inj h
    subst this
    dsimp only
    omega

/-- Two combs crossing in 16 points: more than 16 pieces, so bins are used; whatever the strategy. -/
def exComb : List (List Pt) × List (List Pt) :=
  ([[⟨0, 0⟩, ⟨30, 0⟩, ⟨30, 4⟩, ⟨0, 4⟩], [⟨0, 10⟩, ⟨30, 10⟩, ⟨30, 14⟩, ⟨0, 14⟩]],
   [[⟨5, -5⟩, ⟨9, -5⟩, ⟨9, 20⟩, ⟨5, 20⟩], [⟨15, -5⟩, ⟨19, -5⟩, ⟨19, 20⟩, ⟨15, 20⟩]])

example : (exApply CountBool).Ok ∧ (bruteTree CountBool).Ok ∧ (∀ c ∈ exComb.1 ++ exComb.2, ∀ p ∈ c, InRange p) ∧
    (∃ r, splitSegmentsImpl (exApply CountBool) .frag ⟨0, 1⟩ (bruteTree CountBool) 9 (overlaySegments exComb.1 exComb.2) = .done r ∧
      r.length = 48) := by
  refine ⟨exApply_ok _, bruteTree_ok, by unfold InRange; decide +kernel, ?_⟩
  have h : (match splitSegmentsImpl (exApply CountBool) .frag ⟨0, 1⟩ (bruteTree CountBool) 9 (overlaySegments exComb.1 exComb.2) with
    | .done r => decide (r.length = 48) | _ => false) = true := by decide +kernel
  split at h
  · rename_i r hr; exact ⟨r, hr, by simpa using h⟩
  · simp at h

end IOverlay
