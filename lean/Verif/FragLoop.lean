/-
The loop of fragment splitting against the list loop.
-/
import Verif.FragRound
import Verif.Box

namespace IOverlay
open WindingCount
variable {C : Type}

/-- The states of the list strategy: radius and edges at the start of every round, starting with the given ones. -/
inductive ListRounds [WindingCount C] : SnapRadius → List (Seg C) → SnapRadius → List (Seg C) → Prop
  | start (sr : SnapRadius) (segs : List (Seg C)) : ListRounds sr segs sr segs
  | next {sr sr' : SnapRadius} {segs l : List (Seg C)} :
      (roundMarks sr.radius (listPairs segs)).2 = true →
      ListRounds sr.increment (applyMarks (roundMarks sr.radius (listPairs segs)).1 segs) sr' l → ListRounds sr segs sr' l

/-- In every round fragments can discover all touches, and the radius stays below `2^31`. -/
def FragClear [WindingCount C] (g : Grid) (sr : SnapRadius) (segs : List (Seg C)) : Prop :=
  ∀ sr' l, ListRounds sr segs sr' l → FragSafe g l ∧ sr'.current ≤ 30

/-- What is required for the fragment strategy: if it is used (strategy `Frag`, or more than 16000 edges), all
coordinates are in range and in every round fragments can discover all touches (`FragSafe`). Nothing is required of other
strategies. -/
def FragOk [WindingCount C] (st : Strategy) (sr : SnapRadius) (segs : List (Seg C)) : Prop :=
  isListSplit st (mergeIfNeeded (sortSegs segs)).length = false →
  isFragmentation st (mergeIfNeeded (sortSegs segs)).length = true →
  ∀ g, Grid.new (mergeIfNeeded (sortSegs segs)) = some g →
    (∀ s ∈ mergeIfNeeded (sortSegs segs), InRange s.a ∧ InRange s.b) ∧ FragClear g sr (mergeIfNeeded (sortSegs segs))

/-- The list strategy needs nothing. -/
theorem FragOk.list [WindingCount C] (sr : SnapRadius) (segs : List (Seg C)) : FragOk .list sr segs := by
  intro h; simp [isListSplit] at h

/-- Strategies other than `Frag` need nothing for up to 16000 edges. -/
theorem FragOk.small [WindingCount C] {st : Strategy} (hst : st ≠ .frag) (sr : SnapRadius) (segs : List (Seg C))
    (h : (mergeIfNeeded (sortSegs segs)).length ≤ 16000) : FragOk st sr segs := by
  intro _ h'
  unfold isFragmentation at h'
  cases st <;> simp at h' hst <;> omega

theorem FragClear.next [WindingCount C] {g : Grid} {sr : SnapRadius} {segs : List (Seg C)} (h : FragClear g sr segs)
    (hr : (roundMarks sr.radius (listPairs segs)).2 = true) :
    FragClear g sr.increment (applyMarks (roundMarks sr.radius (listPairs segs)).1 segs) :=
  fun sr' l hl => h sr' l (.next hr hl)

/-- State of the loop: sorted edges in the grid and in range. -/
structure FragState (g : Grid) (segs : List (Seg C)) : Prop where
  sorted : segs.Pairwise Seg.lt
  inGrid : InGrid g segs
  range : ∀ s ∈ segs, InRange s.a ∧ InRange s.b

theorem foldl_max_le (l : List (Seg C)) : ∀ m : Int, m ≤ l.foldl (fun m t => max t.b.x m) m ∧
    ∀ s ∈ l, s.b.x ≤ l.foldl (fun m t => max t.b.x m) m := by
  induction l with
  | nil => intro m; simp
  | cons t l ih =>
    intro m
    rw [List.foldl_cons]
    obtain ⟨h1, h2⟩ := ih (max t.b.x m)
    refine ⟨by omega, ?_⟩
    intro s hs
    rcases List.mem_cons.1 hs with rfl | hs
    · omega
    · exact h2 s hs

/-- The grid spans all edges it is made for. -/
theorem Grid.new_inGrid {segs : List (Seg C)} (hs : segs.Pairwise Seg.lt) (hl : ∀ s ∈ segs, s.a < s.b) {g : Grid}
    (h : Grid.new segs = some g) : InGrid g segs := by
  unfold Grid.new at h
  cases segs with
  | nil => simp at h
  | cons s rest =>
    dsimp only at h
    unfold Grid.withMinMax at h
    dsimp only at h
    split at h
    · simp at h
    · simp only [Option.some.injEq] at h
      subst h
      obtain ⟨h1, h2⟩ := foldl_max_le rest s.b.x
      rw [List.pairwise_cons] at hs
      refine ⟨hl, ?_, ?_⟩
      · intro t ht
        rcases List.mem_cons.1 ht with rfl | ht
        · exact le_refl _
        · have := hs.1 t ht
          unfold Seg.lt at this
          rw [Pt.lt_def] at this
          dsimp only
          rcases this with h | ⟨h, -⟩
          · omega
          · rw [h]
      · intro t ht
        rcases List.mem_cons.1 ht with rfl | ht
        · exact h1
        · exact h2 t ht

theorem SnapRadius.one_le (s : SnapRadius) : 1 ≤ s.radius := by
  unfold SnapRadius.radius
  exact one_le_pow₀ (by norm_num)

theorem SnapRadius.radius_lt (s : SnapRadius) (h : s.current ≤ 30) : s.radius < 2 ^ 31 := by
  unfold SnapRadius.radius
  exact pow_lt_pow_right₀ (by norm_num) (by omega)

/-- A round by fragments does the same as a round over all pairs. -/
theorem fragRound_same [WindingCount C] {g : Grid} {segs : List (Seg C)} (h : FragState g segs) (hsafe : FragSafe g segs)
    {sr : SnapRadius} (hc : sr.current ≤ 30) :
    (fragRound g sr.radius segs).1.isEmpty = (roundMarks sr.radius (listPairs segs)).1.isEmpty ∧
    (fragRound g sr.radius segs).2 = (roundMarks sr.radius (listPairs segs)).2 ∧
    applyMarks (fragRound g sr.radius segs).1 segs = applyMarks (roundMarks sr.radius (listPairs segs)).1 segs := by
  have hcov := listPairs_covers segs (sorted_of_strict h.sorted) h.inGrid.lt
  obtain ⟨a1, a2⟩ := fragRound_sound hcov h.inGrid h.sorted sr.radius_nonneg
  obtain ⟨b1, b2⟩ := fragRound_complete hcov h.inGrid h.sorted hsafe h.range sr.one_le (sr.radius_lt hc)
  refine ⟨?_, ?_, applyMarks_congr (fun m => ⟨a1 m, b1 m⟩) segs⟩
  · rw [Bool.eq_iff_iff, List.isEmpty_iff, List.isEmpty_iff, List.eq_nil_iff_forall_not_mem,
      List.eq_nil_iff_forall_not_mem]
    exact ⟨fun h m hm => h m (b1 m hm), fun h m hm => h m (a1 m hm)⟩
  · rw [Bool.eq_iff_iff]; exact ⟨a2, b2⟩

/-- Marks found by fragments stay in the box, in every situation. -/
theorem fragRound_box {g : Grid} {segs : List (Seg C)} (h : FragState g segs) {radius : Int} (hr : 0 ≤ radius) {B : Box}
    (hB : Boxed B segs) : ∀ m ∈ (fragRound g radius segs).1, B.Has m.point := by
  intro m hm
  have hcov := listPairs_covers segs (sorted_of_strict h.sorted) h.inGrid.lt
  exact roundMarks_box h.inGrid.lt hcov hr hB h.range m ((fragRound_sound hcov h.inGrid h.sorted hr).1 m hm)

/-- The state is kept by splitting, in every situation. -/
theorem FragState.next [WindingCount C] {g : Grid} {segs : List (Seg C)} (h : FragState g segs) {radius : Int}
    (hr : 0 ≤ radius) : FragState g (applyMarks (fragRound g radius segs).1 segs) := by
  have hcov := listPairs_covers segs (sorted_of_strict h.sorted) h.inGrid.lt
  have hsound := (fragRound_sound hcov h.inGrid h.sorted hr).1
  have hlt : ∀ e ∈ applyMarks (fragRound g radius segs).1 segs, e.a < e.b := by
    intro e he
    obtain ⟨e', h1, h2, h3⟩ := mergeIfNeeded_edges _ e he
    rw [(sortSegs_perm _).mem_iff] at h1
    rw [h2, h3]
    refine splitAll_lt _ _ h.inGrid.lt ?_ e' h1
    intro m hm s hs
    obtain ⟨s', h, h'⟩ := roundMarks_ne h.inGrid.lt hcov hr (hsound m hm)
    rw [hs] at h; cases h; exact h'
  have key : ∀ B : Box, Boxed B segs → Boxed B (applyMarks (fragRound g radius segs).1 segs) := by
    intro B hB
    exact applyMarks_ends _ _ B.Has hB (fragRound_box h hr hB)
  refine ⟨applyMarks_sorted _ _, ⟨hlt, ?_, ?_⟩, ?_⟩
  · intro s hs
    exact (key ⟨g.minX, g.maxX, -2 ^ 30 + 1, 2 ^ 30 - 1⟩ (by
      intro t ht
      have a := h.inGrid.left t ht
      have b := h.inGrid.right t ht
      have c := Pt.lt_def.1 (h.inGrid.lt t ht)
      obtain ⟨d, e⟩ := h.range t ht
      unfold InRange at d e
      unfold Box.HasSeg Box.Has
      dsimp only
      omega) s hs).1.1
  · intro s hs
    exact (key ⟨g.minX, g.maxX, -2 ^ 30 + 1, 2 ^ 30 - 1⟩ (by
      intro t ht
      have a := h.inGrid.left t ht
      have b := h.inGrid.right t ht
      have c := Pt.lt_def.1 (h.inGrid.lt t ht)
      obtain ⟨d, e⟩ := h.range t ht
      unfold InRange at d e
      unfold Box.HasSeg Box.Has
      dsimp only
      omega) s hs).2.2.1
  · intro s hs
    have := key ⟨-2 ^ 30 + 1, 2 ^ 30 - 1, -2 ^ 30 + 1, 2 ^ 30 - 1⟩ (by
      intro t ht
      obtain ⟨d, e⟩ := h.range t ht
      unfold InRange at d e
      unfold Box.HasSeg Box.Has
      dsimp only
      omega) s hs
    unfold Box.HasSeg Box.Has at this
    unfold InRange
    dsimp only at this
    omega

/-- Invariants of the loop. -/
theorem fragLoop_gen [WindingCount C] (g : Grid)
    (P N : List (Seg C) → Prop) (hN : ∀ l, Noded l → N l)
    (hP : ∀ (marks : List Mark) (segs : List (Seg C)), P segs → P (applyMarks marks segs))
    (h2 : ∀ l : List (Seg C), l.Pairwise Seg.lt → (∀ s ∈ l, s.a < s.b) → P l → l.length ≤ 2 → N l)
    (n : Nat) (sr : SnapRadius) (segs r : List (Seg C)) (hst : FragState g segs) (hcl : FragClear g sr segs)
    (hp : P segs) (he : fragLoop g n sr segs = some r) :
    N r ∧ r.Pairwise Seg.lt ∧ (∀ s ∈ r, s.a < s.b) ∧ P r := by
  induction n generalizing sr segs with
  | zero => simp [fragLoop] at he
  | succ n ih =>
    have hcov := listPairs_covers segs (sorted_of_strict hst.sorted) hst.inGrid.lt
    have hr := sr.radius_nonneg
    have hst' := hst.next hr
    obtain ⟨hsafe, h30⟩ := hcl sr segs (.start _ _)
    obtain ⟨a1, a2, a3⟩ := fragRound_same hst hsafe h30
    rw [fragLoop] at he
    dsimp only at he
    split at he
    · next hlen =>
      simp only [Option.some.injEq] at he; subst he
      exact ⟨h2 _ hst.sorted hst.inGrid.lt hp hlen, hst.sorted, hst.inGrid.lt, hp⟩
    · rw [a1, a2] at he
      split at he
      · next hm =>
        simp only [Option.some.injEq] at he; subst he
        exact ⟨hN _ (noded_of_no_marks hst.sorted hst.inGrid.lt hcov hr (List.isEmpty_iff.1 hm)), hst.sorted,
          hst.inGrid.lt, hp⟩
      · split at he
        · next hround =>
          refine ih _ _ hst' ?_ (hP _ _ hp) he
          rw [a3]; exact hcl.next hround
        · next hround =>
          simp only [Option.some.injEq] at he; subst he
          refine ⟨hN _ ?_, hst'.sorted, hst'.inGrid.lt, hP _ _ hp⟩
          rw [a3]
          exact applyMarks_noded hst.inGrid.lt hcov hr (by simpa using hround)

/-- Invariants that hold in every situation, safe or not. -/
theorem fragLoop_basic [WindingCount C] (g : Grid) (P : List (Seg C) → Prop)
    (hP : ∀ (marks : List Mark) (segs : List (Seg C)), P segs → P (applyMarks marks segs))
    (n : Nat) (sr : SnapRadius) (segs r : List (Seg C)) (hst : FragState g segs)
    (hp : P segs) (he : fragLoop g n sr segs = some r) :
    FragState g r ∧ P r ∧ ∀ B : Box, Boxed B segs → Boxed B r := by
  induction n generalizing sr segs with
  | zero => simp [fragLoop] at he
  | succ n ih =>
    have hst' := hst.next sr.radius_nonneg
    have hbox : ∀ B : Box, Boxed B segs → Boxed B (applyMarks (fragRound g sr.radius segs).1 segs) := fun B hB =>
      applyMarks_ends _ _ B.Has hB (fragRound_box hst sr.radius_nonneg hB)
    rw [fragLoop] at he
    dsimp only at he
    split at he
    · simp only [Option.some.injEq] at he; subst he
      exact ⟨hst, hp, fun B h => h⟩
    · split at he
      · simp only [Option.some.injEq] at he; subst he
        exact ⟨hst, hp, fun B h => h⟩
      · split at he
        · obtain ⟨a, b, c⟩ := ih _ _ hst' (hP _ _ hp) he
          exact ⟨a, b, fun B h => c B (hbox B h)⟩
        · simp only [Option.some.injEq] at he; subst he
          exact ⟨hst', hP _ _ hp, hbox⟩

end IOverlay
