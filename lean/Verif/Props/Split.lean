/-
Properties C12 (noding), C13 (closedness), C14 (boundary not moved), C15 (no degenerate edges),
C37 (snap radius), C38 (list and tree strategies agree).
-/
import Verif.SplitLoop
import Verif.FragLoop
import Verif.Props.Build
import Verif.Props.Merge
import Mathlib.Algebra.BigOperators.Group.Finset.Basic
import Mathlib.Algebra.BigOperators.Ring.Finset

namespace IOverlay
open WindingCount
variable {C : Type}

/-! ### balance at vertices -/

/-- Sum of the counts of the edges having their left end at `P`. -/
def leftAt (φ : C → Int) (l : List (Seg C)) (P : Pt) : Int :=
  ((l.filter fun s => decide (s.a = P)).map fun s => φ s.c).sum

/-- Sum of the counts of the edges having their right end at `P`. -/
def rightAt (φ : C → Int) (l : List (Seg C)) (P : Pt) : Int :=
  ((l.filter fun s => decide (s.b = P)).map fun s => φ s.c).sum

/-- At every vertex the signed number of edges leaving equals the number entering (a count `n` on an
edge `a b` stands for `n` boundary lines running from `a` to `b`). -/
def Balanced (φ : C → Int) (l : List (Seg C)) : Prop := ∀ P, leftAt φ l P = rightAt φ l P

theorem segSum_indicator (φ : C → Int) (l : List (Seg C)) (P : Pt) :
    segSum φ (fun a b => (if a = P then 1 else 0) - (if b = P then 1 else 0)) l =
      leftAt φ l P - rightAt φ l P := by
  induction l with
  | nil => rfl
  | cons s l ih =>
    rw [segSum_cons, ih]
    unfold leftAt rightAt
    rw [List.filter_cons, List.filter_cons]
    by_cases h1 : s.a = P <;> by_cases h2 : s.b = P <;> simp [h1, h2] <;> ring

theorem segSum_finset (φ : C → Int) (f : Pt → Int) (V : Finset Pt) (l : List (Seg C))
    (hV : ∀ s ∈ l, s.a ∈ V ∧ s.b ∈ V) :
    segSum φ (fun a b => f a - f b) l =
      ∑ P ∈ V, f P * segSum φ (fun a b => (if a = P then 1 else 0) - (if b = P then 1 else 0)) l := by
  induction l with
  | nil => simp
  | cons s l ih =>
    rw [segSum_cons, ih fun t ht => hV t (List.mem_cons_of_mem _ ht)]
    obtain ⟨ha, hb⟩ := hV s (by simp)
    simp only [segSum_cons, mul_add, Finset.sum_add_distrib]
    congr 1
    have e1 : f s.a = ∑ P ∈ V, f P * (if s.a = P then 1 else 0) := by simp [ha]
    have e2 : f s.b = ∑ P ∈ V, f P * (if s.b = P then 1 else 0) := by simp [hb]
    conv_lhs => rw [e1, e2, ← Finset.sum_sub_distrib, Finset.mul_sum]
    refine Finset.sum_congr rfl fun P _ => ?_
    ring

theorem closed_iff_balanced (φ : C → Int) (l : List (Seg C)) : Closed φ l ↔ Balanced φ l := by
  constructor
  · intro h P
    have := h fun p => if p = P then 1 else 0
    rw [segSum_indicator] at this
    omega
  · intro h f
    rw [segSum_finset φ f ((l.map Seg.a ++ l.map Seg.b).toFinset) l]
    · refine Finset.sum_eq_zero fun P _ => ?_
      rw [segSum_indicator, h P]; ring
    · intro s hs
      simp only [List.mem_toFinset, List.mem_append, List.mem_map]
      exact ⟨Or.inl ⟨s, hs, rfl⟩, Or.inr ⟨s, hs, rfl⟩⟩

/-! ### the registered input -/

theorem overlaySegments_lt [WindingCount C] (subj clip : List (List Pt)) :
    ∀ s ∈ (overlaySegments subj clip : List (Seg C)), s.a < s.b := by
  intro s hs
  simp only [overlaySegments, List.mem_append, List.mem_flatMap] at hs
  rcases hs with ⟨c, _, h⟩ | ⟨c, _, h⟩ <;> exact appendPath_lt _ _ _ s h

theorem overlaySegments_boolOk (subj clip : List (List Pt)) :
    BoolOk (overlaySegments subj clip : List (Seg CountBool)) := by
  refine ⟨?_, ?_, overlaySegments_nonempty subj clip⟩
  · exact (Closed.flatMap fun c _ => appendPath_closed CountBool.subj 1 rfl rfl c).append
      (Closed.flatMap fun c _ => appendPath_closed CountBool.subj 0 rfl rfl c)
  · exact (Closed.flatMap fun c _ => appendPath_closed CountBool.clip 0 rfl rfl c).append
      (Closed.flatMap fun c _ => appendPath_closed CountBool.clip 1 rfl rfl c)

section start
variable [WindingCount C]

theorem start_sorted (l : List (Seg C)) : (mergeIfNeeded (sortSegs l)).Pairwise Seg.lt :=
  mergeIfNeeded_sorted _ (sortSegs_sorted l)

theorem start_lt {l : List (Seg C)} (h : ∀ s ∈ l, s.a < s.b) :
    ∀ s ∈ mergeIfNeeded (sortSegs l), s.a < s.b := by
  intro s hs
  obtain ⟨t, h1, h2, h3⟩ := mergeIfNeeded_edges _ s hs
  rw [h2, h3]; exact h t ((sortSegs_perm l).mem_iff.1 h1)

theorem start_sum {φ : C → Int} (hφ : IsComp φ) (g : Pt → Pt → Int) (l : List (Seg C)) :
    segSum φ g (mergeIfNeeded (sortSegs l)) = segSum φ g l := by
  rw [mergeIfNeeded_segSum hφ, segSum_perm _ _ (sortSegs_perm l)]

theorem start_nonempty {l : List (Seg C)} (h : ∀ s ∈ l, isNotEmpty s.c = true) :
    ∀ s ∈ mergeIfNeeded (sortSegs l), isNotEmpty s.c = true :=
  mergeIfNeeded_nonempty _ fun s hs => h s ((sortSegs_perm l).mem_iff.1 hs)

theorem splitSegments_gen (st : Strategy) (sr : SnapRadius) (tree : TreeOracle C) (ht : tree.Ok)
    (P N : List (Seg C) → Prop) (hN : ∀ l, Noded l → N l)
    (hP : ∀ (marks : List Mark) (segs : List (Seg C)), P segs → P (applyMarks marks segs))
    (h2 : st = .list ∨
      ∀ l : List (Seg C), l.Pairwise Seg.lt → (∀ s ∈ l, s.a < s.b) → P l → l.length ≤ 2 → N l)
    (fuel : Nat) (segs r : List (Seg C)) (hl : ∀ s ∈ segs, s.a < s.b) (hf : FragOk st sr segs)
    (hp : P (mergeIfNeeded (sortSegs segs)))
    (he : splitSegments st sr tree fuel segs = some r) :
    N r ∧ r.Pairwise Seg.lt ∧ (∀ s ∈ r, s.a < s.b) ∧ P r := by
  unfold splitSegments at he
  simp only at he
  split at he
  · exact splitLoop_gen st tree ht P N hN hP fuel .list sr _ r (h2.imp (fun h => ⟨h, rfl⟩) id)
      (start_sorted _) (start_lt hl) hp he
  · next hn =>
    have h2 : ∀ l : List (Seg C), l.Pairwise Seg.lt → (∀ s ∈ l, s.a < s.b) → P l → l.length ≤ 2 → N l := by
      rcases h2 with rfl | h2
      · simp [isListSplit] at hn
      · exact h2
    split at he
    · next hfr =>
      unfold fragSplit at he
      split at he
      · exact splitLoop_gen st tree ht P N hN hP fuel .tree sr _ r (Or.inr h2) (start_sorted _) (start_lt hl) hp he
      · next g hg =>
        obtain ⟨f1, f2⟩ := hf (by simpa using hn) hfr g hg
        exact fragLoop_gen g P N hN hP h2 fuel sr _ r
          ⟨start_sorted _, Grid.new_inGrid (start_sorted _) (start_lt hl) hg, f1⟩ f2 hp he
    · exact splitLoop_gen st tree ht P N hN hP fuel .tree sr _ r (Or.inr h2) (start_sorted _) (start_lt hl) hp he

theorem splitSegments_spec (st : Strategy) (sr : SnapRadius) (tree : TreeOracle C) (ht : tree.Ok)
    (P : List (Seg C) → Prop)
    (hP : ∀ (marks : List Mark) (segs : List (Seg C)), P segs → P (applyMarks marks segs))
    (h2 : st = .list ∨
      ∀ l : List (Seg C), l.Pairwise Seg.lt → (∀ s ∈ l, s.a < s.b) → P l → l.length ≤ 2 → Noded l)
    (fuel : Nat) (segs r : List (Seg C)) (hl : ∀ s ∈ segs, s.a < s.b) (hf : FragOk st sr segs)
    (hp : P (mergeIfNeeded (sortSegs segs)))
    (he : splitSegments st sr tree fuel segs = some r) :
    Noded r ∧ r.Pairwise Seg.lt ∧ (∀ s ∈ r, s.a < s.b) ∧ P r := by
  exact splitSegments_gen st sr tree ht P Noded (fun _ h => h) hP h2 fuel segs r hl hf hp he

end start

theorem BoolOk.start {l : List (Seg CountBool)} (h : BoolOk l) : BoolOk (mergeIfNeeded (sortSegs l)) :=
  ⟨fun f => by rw [start_sum isComp_subj]; exact h.1 f,
   fun f => by rw [start_sum isComp_clip]; exact h.2.1 f, start_nonempty h.2.2⟩

theorem boolOk_small_noded (l : List (Seg CountBool)) (hs : l.Pairwise Seg.lt) (hl : ∀ s ∈ l, s.a < s.b)
    (h : BoolOk l) (hlen : l.length ≤ 2) : Noded l := by
  rw [h.small hs hl hlen]; exact List.Pairwise.nil

theorem pairwise_ne {α : Type} {R : α → α → Prop} (hsym : ∀ {x y}, R x y → R y x) {l : List α}
    (h : l.Pairwise R) {x y : α} (hx : x ∈ l) (hy : y ∈ l) (hne : x ≠ y) : R x y := by
  induction l with
  | nil => simp at hx
  | cons z l ih =>
    obtain ⟨h1, h2⟩ := List.pairwise_cons.1 h
    rcases List.mem_cons.1 hx with hx' | hx' <;> rcases List.mem_cons.1 hy with hy' | hy'
    · exact absurd (hx'.trans hy'.symm) hne
    · subst hx'; exact h1 y hy'
    · subst hy'; exact hsym (h1 x hx')
    · exact ih h2 hx' hy'

/-! ### C12 -/

/-- C12 (boolean overlay): for any contours, strategy, snap precision, and any segment tree
reporting at least the pairs that have a common point, when splitting finishes any two different
resulting edges only meet at points that are ends of both. `FragOk` only restricts runs that use fragments
(strategy `Frag`, or more than 16000 edges); it cannot be dropped for these, see C38. -/
theorem C12_noding (st : Strategy) (sr : SnapRadius) (tree : TreeOracle CountBool) (ht : tree.Ok)
    (fuel : Nat) (subj clip : List (List Pt)) (hf : FragOk st sr (overlaySegments subj clip : List (Seg CountBool)))
    (r : List (Seg CountBool))
    (he : splitSegments st sr tree fuel (overlaySegments subj clip) = some r) :
    ∀ e ∈ r, ∀ f ∈ r, e ≠ f → MeetAtEnds e.a e.b f.a f.b := by
  obtain ⟨h, _⟩ := splitSegments_spec st sr tree ht BoolOk (fun m l hl => hl.apply m)
    (Or.inr boolOk_small_noded) fuel _ r (overlaySegments_lt subj clip) hf
    (overlaySegments_boolOk subj clip).start he
  intro e he f hf hne
  have sym : ∀ {x y : Seg CountBool}, MeetAtEnds x.a x.b y.a y.b → MeetAtEnds y.a y.b x.a x.b :=
    fun h q a b => (h q b a).symm
  exact pairwise_ne sym h he hf hne

/-- C12 for any kind of counts (string overlay included) with the list strategy, for any edges. -/
theorem C12_noding_list [WindingCount C] (sr : SnapRadius) (tree : TreeOracle C) (ht : tree.Ok)
    (fuel : Nat) (segs r : List (Seg C)) (hl : ∀ s ∈ segs, s.a < s.b)
    (he : splitSegments .list sr tree fuel segs = some r) : Noded r :=
  (splitSegments_spec .list sr tree ht (fun _ => True) (fun _ _ _ => trivial) (Or.inl rfl) fuel segs r
    hl (FragOk.list _ _) trivial he).1

/-! ### C13 -/

/-- What every application of marks preserves, splitting preserves. -/
theorem splitSegments_keeps [WindingCount C] (P : List (Seg C) → Prop)
    (hP : ∀ (marks : List Mark) (segs : List (Seg C)), P segs → P (applyMarks marks segs)) (st : Strategy) (sr : SnapRadius)
    (tree : TreeOracle C) (fuel : Nat) (segs r : List (Seg C)) (h0 : P (mergeIfNeeded (sortSegs segs)))
    (he : splitSegments st sr tree fuel segs = some r) : P r := by
  have loop : ∀ (n : Nat) (mode : Mode) (sr : SnapRadius) (l : List (Seg C)), P l →
      splitLoop st tree n mode sr l = some r → P r := by
    intro n
    induction n with
    | zero => intro mode sr l _ h; simp [splitLoop] at h
    | succ n ih =>
      intro mode sr l hl h
      cases mode with
      | list =>
        rw [splitLoop] at h
        split at h
        · simp only [Option.some.injEq] at h; subst h; exact hl
        · simp only at h
          split at h
          · simp only [Option.some.injEq] at h; subst h; exact hl
          · split at h
            · split at h
              · exact ih _ _ _ (hP _ _ hl) h
              · exact ih _ _ _ (hP _ _ hl) h
            · simp only [Option.some.injEq] at h; subst h; exact hP _ _ hl
      | tree =>
        rw [splitLoop] at h
        split at h
        · exact ih _ _ _ hl h
        · exact ih _ _ _ hl h
      | treeLoop =>
        rw [splitLoop] at h
        split at h
        · simp only [Option.some.injEq] at h; subst h; exact hl
        · simp only at h
          split at h
          · simp only [Option.some.injEq] at h; subst h; exact hl
          · split at h
            · exact ih _ _ _ (hP _ _ hl) h
            · simp only [Option.some.injEq] at h; subst h; exact hP _ _ hl
  have frag : ∀ (g : Grid) (n : Nat) (sr : SnapRadius) (l : List (Seg C)), P l →
      fragLoop g n sr l = some r → P r := by
    intro g n
    induction n with
    | zero => intro sr l _ h; simp [fragLoop] at h
    | succ n ih =>
      intro sr l hl h
      rw [fragLoop] at h
      dsimp only at h
      split at h
      · simp only [Option.some.injEq] at h; subst h; exact hl
      · split at h
        · simp only [Option.some.injEq] at h; subst h; exact hl
        · split at h
          · exact ih _ _ (hP _ _ hl) h
          · simp only [Option.some.injEq] at h; subst h; exact hP _ _ hl
  unfold splitSegments at he
  simp only at he
  split at he
  · exact loop _ _ _ _ h0 he
  · split at he
    · unfold fragSplit at he
      split at he
      · exact loop _ _ _ _ h0 he
      · exact frag _ _ _ _ h0 he
    · exact loop _ _ _ _ h0 he

/-- C13: for any edges balanced at every vertex, any strategy, any precision: balanced afterwards. -/
theorem C13_balanced [WindingCount C] {φ : C → Int} (hφ : IsComp φ) (st : Strategy) (sr : SnapRadius)
    (tree : TreeOracle C) (fuel : Nat) (segs r : List (Seg C)) (hb : Balanced φ segs)
    (he : splitSegments st sr tree fuel segs = some r) : Balanced φ r := by
  rw [← closed_iff_balanced] at *
  exact splitSegments_keeps (Closed φ) (fun _ _ h => applyMarks_closed hφ _ _ h) st sr tree fuel segs r
    (fun f => by rw [start_sum hφ]; exact hb f) he

/-- C13, instantiated: contours registered by the user stay closed, for both shapes. -/
theorem C13_contours_stay_closed (st : Strategy) (sr : SnapRadius) (tree : TreeOracle CountBool)
    (fuel : Nat) (subj clip : List (List Pt)) (r : List (Seg CountBool))
    (he : splitSegments st sr tree fuel (overlaySegments subj clip) = some r) :
    Balanced CountBool.subj r ∧ Balanced CountBool.clip r := by
  obtain ⟨h1, h2, _⟩ := overlaySegments_boolOk subj clip
  exact ⟨C13_balanced isComp_subj st sr tree fuel _ r ((closed_iff_balanced _ _).1 h1) he,
    C13_balanced isComp_clip st sr tree fuel _ r ((closed_iff_balanced _ _).1 h2) he⟩

/-! ### C14 -/

/-- C14: marks lying on their edges do not change any winding number. -/
theorem C14_exact_marks [WindingCount C] {φ : C → Int} (hφ : IsComp φ) (marks : List Mark)
    (segs : List (Seg C)) (hl : ∀ s ∈ segs, s.a < s.b)
    (hm : ∀ m ∈ marks, ∀ s, segs[m.index]? = some s → onSeg m.point.q s.a s.b) (q : QPt) :
    segsWind φ (applyMarks marks segs) q = segsWind φ segs q := by
  rw [segsWind_eq_segSum, segsWind_eq_segSum]
  refine applyMarks_sum hφ _ (fun u v => edgeWind_swap u v q) marks segs ?_
  intro i s hi pts hp
  refine pathSum_wind (Pt.ne_of_lt (hl s (List.mem_of_getElem? hi))) q s.a (area2_self_left _ _) pts ?_
  intro m hmem
  exact area2_of_inSeg (hm _ (hp m hmem) s hi)

/-- C14 for the whole phase with the list strategy: if the crossing tests of the first round need no rounding, the winding
numbers of the result are those of the input. -/
theorem C14_exact_split [WindingCount C] {φ : C → Int} (hφ : IsComp φ) (sr : SnapRadius)
    (tree : TreeOracle C) (fuel : Nat) (segs r : List (Seg C)) (hl : ∀ s ∈ segs, s.a < s.b)
    (hx : (roundMarks sr.radius (listPairs (mergeIfNeeded (sortSegs segs)))).2 = false)
    (he : splitSegments .list sr tree fuel segs = some r) (q : QPt) :
    segsWind φ r q = segsWind φ segs q := by
  have h0 : segsWind φ (mergeIfNeeded (sortSegs segs)) q = segsWind φ segs q := by
    rw [segsWind_eq_segSum, segsWind_eq_segSum, start_sum hφ]
  unfold splitSegments at he
  simp only [isListSplit, if_true] at he
  cases fuel with
  | zero => simp [splitLoop] at he
  | succ n =>
    rw [splitLoop] at he
    split at he
    · simp only [Option.some.injEq] at he; subst he; exact h0
    · simp only [hx] at he
      split at he
      · simp only [Option.some.injEq] at he; subst he; exact h0
      · simp only [Bool.false_eq_true, if_false, Option.some.injEq] at he
        subst he
        rw [← h0]
        have hc := listPairs_covers _ (sorted_of_strict (start_sorted segs)) (start_lt hl)
        refine C14_exact_marks hφ _ _ (start_lt hl) ?_ q
        intro m hm s hs
        obtain ⟨s', _, _, h3, _, _, h5, _⟩ :=
          roundMarks_exact (start_lt hl) hc sr.radius_nonneg hx hm
        rw [hs] at h3; cases h3; exact h5.on

/-! ### C15 -/

/-- C15, marks: with any radius ≥ 0 every mark produced by the crossing test of two non-degenerate
edges belongs to one of them and differs from both of its ends. -/
theorem C15_marks (p : EPair) (radius : Int) (hr : 0 ≤ radius) (hi : p.ei.a ≠ p.ei.b)
    (hj : p.ej.a ≠ p.ej.b) (m : Mark) (hm : m ∈ (crossMarks radius p).1) :
    (m.index = p.i ∧ m.point ≠ p.ei.a ∧ m.point ≠ p.ei.b) ∨
    (m.index = p.j ∧ m.point ≠ p.ej.a ∧ m.point ≠ p.ej.b) := crossMarks_ne hi hj hr hm

/-- When fragments are used, coordinates are within the documented range. -/
def FragRange [WindingCount C] (st : Strategy) (segs : List (Seg C)) : Prop :=
  isListSplit st (mergeIfNeeded (sortSegs segs)).length = false →
  isFragmentation st (mergeIfNeeded (sortSegs segs)).length = true →
  ∀ s ∈ mergeIfNeeded (sortSegs segs), InRange s.a ∧ InRange s.b

/-- Invariants of all strategies, whether or not fragments miss a crossing. -/
theorem splitSegments_basic [WindingCount C] (st : Strategy) (sr : SnapRadius) (tree : TreeOracle C) (ht : tree.Ok)
    (P : List (Seg C) → Prop) (hP : ∀ (marks : List Mark) (segs : List (Seg C)), P segs → P (applyMarks marks segs))
    (fuel : Nat) (segs r : List (Seg C)) (hl : ∀ s ∈ segs, s.a < s.b) (hf : FragRange st segs)
    (hp : P (mergeIfNeeded (sortSegs segs))) (he : splitSegments st sr tree fuel segs = some r) :
    r.Pairwise Seg.lt ∧ (∀ s ∈ r, s.a < s.b) ∧ P r := by
  have loop : ∀ mode, splitLoop st tree fuel mode sr (mergeIfNeeded (sortSegs segs)) = some r →
      r.Pairwise Seg.lt ∧ (∀ s ∈ r, s.a < s.b) ∧ P r := fun mode h =>
    (splitLoop_gen st tree ht P (fun _ => True) (fun _ _ => trivial) hP fuel mode sr _ r
      (Or.inr fun _ _ _ _ _ => trivial) (start_sorted _) (start_lt hl) hp h).2
  unfold splitSegments at he
  simp only at he
  split at he
  · exact loop _ he
  · next hn =>
    split at he
    · next hfr =>
      unfold fragSplit at he
      split at he
      · exact loop _ he
      · next g hg =>
        obtain ⟨a, b, -⟩ := fragLoop_basic g P hP fuel sr _ r
          ⟨start_sorted _, Grid.new_inGrid (start_sorted _) (start_lt hl) hg, hf (by simpa using hn) hfr⟩ hp he
        exact ⟨a.sorted, a.inGrid.lt, b⟩
    · exact loop _ he

/-- C15: all edges produced by splitting, with any strategy, are non-degenerate, run left to right (upwards if
vertical), and are pairwise different. -/
theorem C15_no_degenerate_edges (st : Strategy) (sr : SnapRadius) (tree : TreeOracle CountBool)
    (ht : tree.Ok) (fuel : Nat) (subj clip : List (List Pt))
    (hf : FragRange st (overlaySegments subj clip : List (Seg CountBool))) (r : List (Seg CountBool))
    (he : splitSegments st sr tree fuel (overlaySegments subj clip) = some r) :
    (∀ e ∈ r, e.a.x < e.b.x ∨ (e.a.x = e.b.x ∧ e.a.y < e.b.y)) ∧ (r.map Seg.x).Nodup ∧
    ∀ e ∈ r, e.c.subj ≠ 0 ∨ e.c.clip ≠ 0 := by
  obtain ⟨h1, h2, h3⟩ := splitSegments_basic st sr tree ht BoolOk (fun m l hl => hl.apply m)
    fuel _ r (overlaySegments_lt subj clip) hf (overlaySegments_boolOk subj clip).start he
  refine ⟨fun e he => Pt.lt_def.1 (h2 e he), ?_, ?_⟩
  · rw [List.Nodup, List.pairwise_map]
    refine h1.imp ?_
    intro s t hst e
    unfold Seg.x at e
    simp only [XSeg.mk.injEq] at e
    unfold Seg.lt at hst
    rw [e.1, e.2] at hst
    rcases hst with h | ⟨_, h⟩ <;> exact Pt.lt_irrefl _ h
  · intro e he
    have := h3.2.2 e he
    simpa [isNotEmpty] using this

/-! ### C37 -/

/-- State of the snap radius after `n` rounds. -/
def SnapRadius.after (s : SnapRadius) : Nat → SnapRadius
  | 0 => s
  | n + 1 => (s.after n).increment

/-- C37: for a starting exponent up to 60 the radius after `n` rounds is `2^min(60, start + n*step)`;
it is positive, never decreases and never exceeds `2^60`. -/
theorem C37_snap_radius (s : SnapRadius) (h : s.current ≤ 60) (n : Nat) :
    (s.after n).radius = 2 ^ (min 60 (s.current + n * s.step)) ∧ 0 < (s.after n).radius ∧
    (s.after n).radius ≤ (s.after (n + 1)).radius ∧ (s.after n).radius ≤ 2 ^ 60 := by
  have key : ∀ n, (s.after n).current = min 60 (s.current + n * s.step) ∧ (s.after n).step = s.step := by
    intro n
    induction n with
    | zero => simp [SnapRadius.after]; omega
    | succ n ih =>
      simp only [SnapRadius.after, SnapRadius.increment, ih.1, ih.2]
      refine ⟨?_, trivial⟩
      rw [Nat.add_mul]; omega
  have mono : ∀ a b : Nat, a ≤ b → (2 : Int) ^ a ≤ 2 ^ b := fun a b h => by
    exact_mod_cast Nat.pow_le_pow_right (by decide) h
  unfold SnapRadius.radius
  rw [(key n).1, (key (n + 1)).1]
  refine ⟨rfl, by positivity, mono _ _ ?_, mono _ _ (by omega)⟩
  rw [Nat.add_mul]; omega

/-! ### C38 -/

theorem covers_marks {segs : List (Seg C)} {p p' : List EPair} {radius : Int}
    (hl : ∀ s ∈ segs, s.a < s.b) (hc : Covers p segs) (hc' : Covers p' segs) (hr : 0 ≤ radius) :
    (∀ m, m ∈ (roundMarks radius p).1 → m ∈ (roundMarks radius p').1) ∧
    ((roundMarks radius p).2 = true → (roundMarks radius p').2 = true) := by
  have key : ∀ e ∈ p, crossMarks radius e = ([], false) ∨ e ∈ p' := by
    intro e he
    obtain ⟨hij, ⟨s, h1, e1⟩, ⟨t, h2, e2⟩⟩ := hc.sound e he
    obtain ⟨n1, n2⟩ := pair_nondeg hl hc hr he
    by_cases hq : ∃ q, onSeg q s.a s.b ∧ onSeg q t.a t.b
    · right
      have := hc'.complete _ _ s t hij h1 h2 hq
      rw [← e1, ← e2] at this
      exact this
    · left
      refine crossMarks_disjoint n1 n2 hr ?_
      intro q a b
      rw [e1] at a; rw [e2] at b
      exact hq ⟨q, a, b⟩
  constructor
  · intro m hm
    obtain ⟨e, he, hm⟩ := List.mem_flatMap.1 hm
    rcases key e he with h | h
    · rw [h] at hm; simp at hm
    · exact List.mem_flatMap.2 ⟨e, h, hm⟩
  · intro h
    unfold roundMarks at *
    dsimp only at *
    rw [List.any_eq_true] at *
    obtain ⟨e, he, h⟩ := h
    rcases key e he with h' | h'
    · rw [h'] at h; simp at h
    · exact ⟨e, h', h⟩

/-- Rounds with two covering enumerations do the same. -/
theorem covers_round [WindingCount C] {segs : List (Seg C)} {p p' : List EPair} {radius : Int}
    (hl : ∀ s ∈ segs, s.a < s.b) (hc : Covers p segs) (hc' : Covers p' segs) (hr : 0 ≤ radius) :
    (roundMarks radius p).1.isEmpty = (roundMarks radius p').1.isEmpty ∧
    (roundMarks radius p).2 = (roundMarks radius p').2 ∧
    applyMarks (roundMarks radius p).1 segs = applyMarks (roundMarks radius p').1 segs := by
  obtain ⟨a1, a2⟩ := covers_marks hl hc hc' hr
  obtain ⟨b1, b2⟩ := covers_marks hl hc' hc hr
  refine ⟨?_, ?_, applyMarks_congr (fun m => ⟨a1 m, b1 m⟩) segs⟩
  · rw [Bool.eq_iff_iff, List.isEmpty_iff, List.isEmpty_iff, List.eq_nil_iff_forall_not_mem,
      List.eq_nil_iff_forall_not_mem]
    exact ⟨fun h m hm => h m (b1 m hm), fun h m hm => h m (a1 m hm)⟩
  · rw [Bool.eq_iff_iff]; exact ⟨a2, b2⟩

/-- More fuel does not change an answer. -/
theorem splitLoop_mono [WindingCount C] (st : Strategy) (tree : TreeOracle C) (n : Nat) (mode : Mode)
    (sr : SnapRadius) (segs r : List (Seg C)) (h : splitLoop st tree n mode sr segs = some r) (m : Nat)
    (hm : n ≤ m) : splitLoop st tree m mode sr segs = some r := by
  induction n generalizing mode sr segs m with
  | zero => simp [splitLoop] at h
  | succ n ih =>
    obtain ⟨m, rfl⟩ : ∃ k, m = k + 1 := ⟨m - 1, by omega⟩
    have hm : n ≤ m := by omega
    cases mode <;> rw [splitLoop] at h ⊢ <;> (try simp only at h ⊢) <;> split_ifs at h ⊢ <;>
      first | exact h | exact ih _ _ _ h _ hm

theorem isListSplit_list (n : Nat) : isListSplit .list n = true := rfl

theorem loop_to_list (st : Strategy) (tree : TreeOracle CountBool) (ht : tree.Ok) (n : Nat)
    (mode : Mode) (sr : SnapRadius) (segs r : List (Seg CountBool)) (hs : segs.Pairwise Seg.lt)
    (hl : ∀ s ∈ segs, s.a < s.b) (hp : BoolOk segs)
    (h : splitLoop st tree n mode sr segs = some r) :
    splitLoop .list tree n .list sr segs = some r := by
  induction n generalizing mode sr segs with
  | zero => simp [splitLoop] at h
  | succ n ih =>
    have hc := listPairs_covers segs (sorted_of_strict hs) hl
    have hr := sr.radius_nonneg
    have small : ∀ k, k ≤ 2 → segs.length ≤ k → splitLoop .list tree (n + 1) .list sr segs = some segs := by
      intro k hk hlen
      rw [hp.small hs hl (by omega)]
      rw [splitLoop]; simp
    cases mode with
    | list =>
      rw [splitLoop] at h ⊢
      simp only [isListSplit_list, if_true] at h ⊢
      split_ifs at h ⊢ with c1 c2 c3 c4
      · exact h
      · exact h
      · exact ih .list _ _ (applyMarks_sorted _ _) (applyMarks_lt hl hc hr) (hp.apply _) h
      · exact ih .tree _ _ (applyMarks_sorted _ _) (applyMarks_lt hl hc hr) (hp.apply _) h
      · exact h
    | tree =>
      rw [splitLoop] at h
      have : splitLoop .list tree n .list sr segs = some r := by
        split_ifs at h
        · exact ih .treeLoop _ _ hs hl hp h
        · exact ih .list _ _ hs hl hp h
      exact splitLoop_mono _ _ _ _ _ _ _ this _ (Nat.le_succ n)
    | treeLoop =>
      rw [splitLoop] at h
      simp only at h
      obtain ⟨a1, a2, a3⟩ := covers_round hl (ht segs hs hl) hc hr
      split_ifs at h with c1 c2 c3
      · simp only [Option.some.injEq] at h; subst h; exact small 2 (le_refl _) c1
      · rw [splitLoop]; simp only
        rw [if_neg (by omega), ← a1, if_pos c2]; exact h
      · rw [splitLoop]; simp only
        rw [if_neg (by omega), ← a1, if_neg c2, ← a2, if_pos c3, ← a3, isListSplit_list, if_pos rfl]
        exact ih .treeLoop _ _ (applyMarks_sorted _ _) (applyMarks_lt hl (ht segs hs hl) hr)
          (hp.apply _) h
      · rw [splitLoop]; simp only
        rw [if_neg (by omega), ← a1, if_neg c2, ← a2, if_neg c3, ← a3]; exact h

theorem loop_of_list (st : Strategy) (tree : TreeOracle CountBool) (ht : tree.Ok) (n : Nat)
    (mode : Mode) (sr : SnapRadius) (segs r : List (Seg CountBool)) (hs : segs.Pairwise Seg.lt)
    (hl : ∀ s ∈ segs, s.a < s.b) (hp : BoolOk segs)
    (h : splitLoop .list tree n .list sr segs = some r) :
    ∃ m, splitLoop st tree m mode sr segs = some r := by
  induction n generalizing mode sr segs with
  | zero => simp [splitLoop] at h
  | succ n ih =>
    have hc := listPairs_covers segs (sorted_of_strict hs) hl
    have hr := sr.radius_nonneg
    obtain ⟨a1, a2, a3⟩ := covers_round hl (ht segs hs hl) hc hr
    have hlist : ∃ m, splitLoop st tree m .list sr segs = some r := by
      rw [splitLoop] at h
      simp only [isListSplit_list, if_true] at h
      split_ifs at h with c1 c2 c3
      · exact ⟨1, by rw [splitLoop, if_pos c1]; exact h⟩
      · exact ⟨1, by rw [splitLoop]; simp only; rw [if_neg c1, if_pos c2]; exact h⟩
      · cases hisl : isListSplit st (applyMarks (roundMarks sr.radius (listPairs segs)).1 segs).length with
        | true =>
          obtain ⟨m, hm⟩ := ih .list _ _ (applyMarks_sorted _ _) (applyMarks_lt hl hc hr) (hp.apply _) h
          exact ⟨m + 1, by
            rw [splitLoop]; simp only; rw [if_neg c1, if_neg c2, if_pos c3, hisl, if_pos rfl]; exact hm⟩
        | false =>
          obtain ⟨m, hm⟩ := ih .tree _ _ (applyMarks_sorted _ _) (applyMarks_lt hl hc hr) (hp.apply _) h
          exact ⟨m + 1, by
            rw [splitLoop]; simp only; rw [if_neg c1, if_neg c2, if_pos c3, hisl]; exact hm⟩
      · exact ⟨1, by rw [splitLoop]; simp only; rw [if_neg c1, if_neg c2, if_neg c3]; exact h⟩
    have htree : ∃ m, splitLoop st tree m .treeLoop sr segs = some r := by
      rw [splitLoop] at h
      simp only [isListSplit_list, if_true] at h
      by_cases hlen : segs.length ≤ 2
      · have e := hp.small hs hl hlen
        rw [e] at h
        simp only [List.length_nil, Nat.zero_le, if_true, Option.some.injEq] at h
        subst h
        exact ⟨1, by rw [splitLoop, if_pos hlen, e]⟩
      · split_ifs at h with c1 c2 c3
        · omega
        · exact ⟨1, by rw [splitLoop]; simp only; rw [if_neg hlen, a1, if_pos c2]; exact h⟩
        · obtain ⟨m, hm⟩ := ih .treeLoop _ _ (applyMarks_sorted _ _) (applyMarks_lt hl hc hr) (hp.apply _) h
          exact ⟨m + 1, by
            rw [splitLoop]; simp only; rw [if_neg hlen, a1, if_neg c2, a2, if_pos c3, a3]; exact hm⟩
        · exact ⟨1, by
            rw [splitLoop]; simp only; rw [if_neg hlen, a1, if_neg c2, a2, if_neg c3, a3]; exact h⟩
    cases mode with
    | list => exact hlist
    | treeLoop => exact htree
    | tree =>
      by_cases hb : tree.canBuild segs = true
      · obtain ⟨m, hm⟩ := htree
        exact ⟨m + 1, by rw [splitLoop, if_pos hb]; exact hm⟩
      · obtain ⟨m, hm⟩ := hlist
        exact ⟨m + 1, by rw [splitLoop, if_neg hb]; exact hm⟩

/-- Splitting with strategy `st` terminates and returns `r`. -/
def SplitReturns [WindingCount C] (st : Strategy) (sr : SnapRadius) (tree : TreeOracle C)
    (segs r : List (Seg C)) : Prop := ∃ fuel, splitSegments st sr tree fuel segs = some r

theorem frag_to_list (tree : TreeOracle CountBool) (g : Grid) (n : Nat) (sr : SnapRadius)
    (segs r : List (Seg CountBool)) (hst : FragState g segs) (hcl : FragClear g sr segs) (hp : BoolOk segs)
    (h : fragLoop g n sr segs = some r) : splitLoop .list tree n .list sr segs = some r := by
  induction n generalizing sr segs with
  | zero => simp [fragLoop] at h
  | succ n ih =>
    have hst' := hst.next sr.radius_nonneg
    obtain ⟨hsafe, h30⟩ := hcl sr segs (.start _ _)
    obtain ⟨a1, a2, a3⟩ := fragRound_same hst hsafe h30
    rw [fragLoop] at h
    dsimp only at h
    rw [splitLoop]
    simp only [isListSplit_list, if_true]
    split at h
    · next hlen =>
      have e := hp.small hst.sorted hst.inGrid.lt hlen
      rw [if_pos (by rw [e]; simp)]; exact h
    · next hlen =>
      rw [if_neg (by omega)]
      rw [a1, a2] at h
      split_ifs at h ⊢ with c1 c2
      · exact h
      · rw [a3] at h hst'
        exact ih _ _ hst' (hcl.next c2) (hp.apply _) h
      · rw [a3] at h; exact h

theorem frag_of_list (tree : TreeOracle CountBool) (g : Grid) (n : Nat) (sr : SnapRadius)
    (segs r : List (Seg CountBool)) (hst : FragState g segs) (hcl : FragClear g sr segs) (hp : BoolOk segs)
    (h : splitLoop .list tree n .list sr segs = some r) : fragLoop g n sr segs = some r := by
  induction n generalizing sr segs with
  | zero => simp [splitLoop] at h
  | succ n ih =>
    have hst' := hst.next sr.radius_nonneg
    obtain ⟨hsafe, h30⟩ := hcl sr segs (.start _ _)
    obtain ⟨a1, a2, a3⟩ := fragRound_same hst hsafe h30
    rw [splitLoop] at h
    simp only [isListSplit_list, if_true] at h
    rw [fragLoop]
    dsimp only
    by_cases hlen : segs.length ≤ 2
    · rw [if_pos hlen]
      have e := hp.small hst.sorted hst.inGrid.lt hlen
      rw [if_pos (by rw [e]; simp)] at h; exact h
    · rw [if_neg hlen, a1, a2, a3]
      rw [if_neg (by omega)] at h
      split_ifs at h ⊢ with c1 c2
      · exact h
      · rw [a3] at hst'
        exact ih _ _ hst' (hcl.next c2) (hp.apply _) h
      · exact h

/-- C38, part: for boolean overlays all strategies return the same edges, and one terminates iff the other does, for
every input and precision and every correct segment tree, provided that a strategy using fragments can discover
all touches (`FragSafe`; and coordinates are in range). For list, tree, and auto with at most 16000 edges there
is no condition. Without the condition the claim is false, and it is false for string overlays, see the refutations in
Props/FragmentRefuted. -/
theorem C38_strategies_agree_partial (st st' : Strategy) (sr : SnapRadius) (tree : TreeOracle CountBool)
    (ht : tree.Ok) (subj clip : List (List Pt))
    (hf : FragOk st sr (overlaySegments subj clip : List (Seg CountBool)))
    (hf' : FragOk st' sr (overlaySegments subj clip : List (Seg CountBool))) (r : List (Seg CountBool)) :
    SplitReturns st sr tree (overlaySegments subj clip) r ↔
    SplitReturns st' sr tree (overlaySegments subj clip) r := by
  have hs := start_sorted (overlaySegments subj clip : List (Seg CountBool))
  have hl := start_lt (overlaySegments_lt (C := CountBool) subj clip)
  have hp := (overlaySegments_boolOk subj clip).start
  have key : ∀ st st' : Strategy, FragOk st sr (overlaySegments subj clip : List (Seg CountBool)) →
      FragOk st' sr (overlaySegments subj clip : List (Seg CountBool)) →
      SplitReturns st sr tree (overlaySegments subj clip) r →
      SplitReturns st' sr tree (overlaySegments subj clip) r := by
    rintro st st' hf hf' ⟨n, h⟩
    have hlist : splitLoop .list tree n .list sr (mergeIfNeeded (sortSegs (overlaySegments subj clip)))
        = some r := by
      unfold splitSegments at h
      simp only at h
      split at h
      · exact loop_to_list st tree ht n _ sr _ r hs hl hp h
      · next hn =>
        split at h
        · next hfr =>
          unfold fragSplit at h
          split at h
          · exact loop_to_list st tree ht n _ sr _ r hs hl hp h
          · next g hg =>
            obtain ⟨f1, f2⟩ := hf (by simpa using hn) hfr g hg
            exact frag_to_list tree g n sr _ r ⟨hs, Grid.new_inGrid hs hl hg, f1⟩ f2 hp h
        · exact loop_to_list st tree ht n _ sr _ r hs hl hp h
    unfold SplitReturns splitSegments
    simp only
    cases hisl : isListSplit st'
        (mergeIfNeeded (sortSegs (overlaySegments subj clip : List (Seg CountBool)))).length with
    | true =>
      obtain ⟨m, hm⟩ := loop_of_list st' tree ht n .list sr _ r hs hl hp hlist
      exact ⟨m, by rw [if_pos rfl]; exact hm⟩
    | false =>
      obtain ⟨m, hm⟩ := loop_of_list st' tree ht n .tree sr _ r hs hl hp hlist
      cases hfr : isFragmentation st'
          (mergeIfNeeded (sortSegs (overlaySegments subj clip : List (Seg CountBool)))).length with
      | false => exact ⟨m, hm⟩
      | true =>
        unfold fragSplit
        cases hg : Grid.new (mergeIfNeeded (sortSegs (overlaySegments subj clip : List (Seg CountBool)))) with
        | none => exact ⟨m, hm⟩
        | some g =>
          obtain ⟨f1, f2⟩ := hf' hisl hfr g hg
          exact ⟨n, frag_of_list tree g n sr _ r ⟨hs, Grid.new_inGrid hs hl hg, f1⟩ f2 hp hlist⟩
  exact ⟨key st st' hf hf', key st' st hf' hf⟩

/-! ### witnesses -/

/-- A segment tree satisfying the contract. -/
def bruteTree (C : Type) : TreeOracle C := ⟨fun _ => true, listPairs⟩

theorem bruteTree_ok : (bruteTree C).Ok := fun segs hs hl =>
  listPairs_covers segs (sorted_of_strict hs) hl

/-- Two crossing squares: splitting finishes, with 12 edges, for list and tree. -/
example : ((splitSegments .list ⟨0, 1⟩ (bruteTree CountBool) 5 (overlaySegments
    [[⟨0, 0⟩, ⟨10, 0⟩, ⟨10, 10⟩, ⟨0, 10⟩]] [[⟨5, 5⟩, ⟨15, 5⟩, ⟨15, 15⟩, ⟨5, 15⟩]])).map List.length,
    (splitSegments .tree ⟨0, 1⟩ (bruteTree CountBool) 5 (overlaySegments
    [[⟨0, 0⟩, ⟨10, 0⟩, ⟨10, 10⟩, ⟨0, 10⟩]] [[⟨5, 5⟩, ⟨15, 5⟩, ⟨15, 15⟩, ⟨5, 15⟩]])).map List.length)
    = (some 12, some 12) := by
  decide +kernel

/-- Two triangles whose crossings are not integer points: rounding takes place and the loop needs more
than one round. -/
example : splitSegments .list ⟨0, 1⟩ (bruteTree CountBool) 1 (overlaySegments
    [[⟨0, 0⟩, ⟨10, 3⟩, ⟨4, 9⟩]] [[⟨3, 0⟩, ⟨11, 9⟩, ⟨0, 7⟩]]) = none ∧
    (splitSegments .list ⟨0, 1⟩ (bruteTree CountBool) 5 (overlaySegments
    [[⟨0, 0⟩, ⟨10, 3⟩, ⟨4, 9⟩]] [[⟨3, 0⟩, ⟨11, 9⟩, ⟨0, 7⟩]])).isSome = true := by
  decide +kernel

end IOverlay
