/-
How far rounding can move the edges of strokes and outlines (as Drift.lean for boolean operations).
-/
import Verif.Drift
import Verif.Chain
import Verif.Props.Mesh

namespace IOverlay
open WindingCount

theorem OffOk.small {l : List (Seg CountOff)} (h : OffOk l) (hs : l.Pairwise Seg.lt) (hl : ∀ s ∈ l, s.a < s.b)
    (hlen : l.length ≤ 2) : l = [] := by
  have := h.toBool.small (by rw [List.pairwise_map]; exact hs) (by
    intro s hs
    obtain ⟨t, ht, rfl⟩ := List.mem_map.1 hs
    exact hl t ht) (by simpa using hlen)
  exact List.map_eq_nil_iff.1 this

theorem off_loop_to_list (st : Strategy) (tree : TreeOracle CountOff) (ht : tree.Ok) (n : Nat)
    (mode : Mode) (sr : SnapRadius) (segs r : List (Seg CountOff)) (hs : segs.Pairwise Seg.lt)
    (hl : ∀ s ∈ segs, s.a < s.b) (hp : OffOk segs)
    (h : splitLoop st tree n mode sr segs = some r) :
    splitLoop .list tree n .list sr segs = some r := by
  induction n generalizing mode sr segs with
  | zero => simp [splitLoop] at h
  | succ n ih =>
    have hc := listPairs_covers segs (sorted_of_strict hs) hl
    have hr := sr.radius_nonneg
    have small : ∀ k, k ≤ 2 → segs.length ≤ k → splitLoop .list tree (n + 1) .list sr segs = some segs := by
      intro k hk hlen
      rw [hp.small hs hl (by omega)]
      rw [splitLoop]; simp
    cases mode with
    | list =>
      rw [splitLoop] at h ⊢
      simp only [isListSplit_list, if_true] at h ⊢
      split_ifs at h ⊢ with c1 c2 c3 c4
      · exact h
      · exact h
      · exact ih .list _ _ (applyMarks_sorted _ _) (applyMarks_lt hl hc hr) (hp.apply _) h
      · exact ih .tree _ _ (applyMarks_sorted _ _) (applyMarks_lt hl hc hr) (hp.apply _) h
      · exact h
    | tree =>
      rw [splitLoop] at h
      have : splitLoop .list tree n .list sr segs = some r := by
        split_ifs at h
        · exact ih .treeLoop _ _ hs hl hp h
        · exact ih .list _ _ hs hl hp h
      exact splitLoop_mono _ _ _ _ _ _ _ this _ (Nat.le_succ n)
    | treeLoop =>
      rw [splitLoop] at h
      simp only at h
      obtain ⟨a1, a2, a3⟩ := covers_round hl (ht segs hs hl) hc hr
      split_ifs at h with c1 c2 c3
      · simp only [Option.some.injEq] at h; subst h; exact small 2 (le_refl _) c1
      · rw [splitLoop]; simp only
        rw [if_neg (by omega), ← a1, if_pos c2]; exact h
      · rw [splitLoop]; simp only
        rw [if_neg (by omega), ← a1, if_neg c2, ← a2, if_pos c3, ← a3, isListSplit_list, if_pos rfl]
        exact ih .treeLoop _ _ (applyMarks_sorted _ _) (applyMarks_lt hl (ht segs hs hl) hr)
          (hp.apply _) h
      · rw [splitLoop]; simp only
        rw [if_neg (by omega), ← a1, if_neg c2, ← a2, if_neg c3, ← a3]; exact h

theorem off_frag_to_list (tree : TreeOracle CountOff) (g : Grid) (n : Nat) (sr : SnapRadius)
    (segs r : List (Seg CountOff)) (hst : FragState g segs) (hcl : FragClear g sr segs) (hp : OffOk segs)
    (h : fragLoop g n sr segs = some r) : splitLoop .list tree n .list sr segs = some r := by
  induction n generalizing sr segs with
  | zero => simp [fragLoop] at h
  | succ n ih =>
    have hst' := hst.next sr.radius_nonneg
    obtain ⟨hsafe, h30⟩ := hcl sr segs (.start _ _)
    obtain ⟨a1, a2, a3⟩ := fragRound_same hst hsafe h30
    rw [fragLoop] at h
    dsimp only at h
    rw [splitLoop]
    simp only [isListSplit_list, if_true]
    split at h
    · next hlen =>
      have e := hp.small hst.sorted hst.inGrid.lt hlen
      rw [if_pos (by rw [e]; simp)]; exact h
    · next hlen =>
      rw [if_neg (by omega)]
      rw [a1, a2] at h
      split_ifs at h ⊢ with c1 c2
      · exact h
      · rw [a3] at h hst'
        exact ih _ _ hst' (hcl.next c2) (hp.apply _) h
      · rw [a3] at h; exact h

theorem off_to_list {st : Strategy} {sr : SnapRadius} {tree : TreeOracle CountOff} (ht : tree.Ok) {fuel : Nat}
    {segs r : List (Seg CountOff)} (hl : ∀ s ∈ segs, s.a < s.b) (hok : OffOk segs) (hf : FragOk st sr segs)
    (h : splitSegments st sr tree fuel segs = some r) :
    splitLoop .list tree fuel .list sr (mergeIfNeeded (sortSegs segs)) = some r := by
  have hs := start_sorted segs
  have hl := start_lt hl
  have hp := hok.start
  unfold splitSegments at h
  simp only at h
  split at h
  · exact off_loop_to_list st tree ht fuel _ sr _ r hs hl hp h
  · next hn =>
    split at h
    · next hfr =>
      unfold fragSplit at h
      split at h
      · exact off_loop_to_list st tree ht fuel _ sr _ r hs hl hp h
      · next g hg =>
        obtain ⟨f1, f2⟩ := hf (by simpa using hn) hfr g hg
        exact off_frag_to_list tree g fuel sr _ r ⟨hs, Grid.new_inGrid hs hl hg, f1⟩ f2 hp h
    · exact off_loop_to_list st tree ht fuel _ sr _ r hs hl hp h

/-- The noded edges of a stroke or outline wind around points far from the registered edges as these do, and stay close
to them. -/
theorem off_drift {st : Strategy} {sr : SnapRadius} {tree : TreeOracle CountOff} (ht : tree.Ok) {fuel : Nat}
    {segs r : List (Seg CountOff)} (hl : ∀ s ∈ segs, s.a < s.b) (hok : OffOk segs) (hf : FragOk st sr segs)
    (hin : ∀ s ∈ segs, InRange s.a ∧ InRange s.b) (he : nodedEdges st sr tree fuel segs = some r) :
    (∀ q : QPt, (∀ e ∈ segs, ¬ Within (drift sr fuel) q e.a e.b) →
      segsWind CountOff.subj r q = segsWind CountOff.subj segs q) ∧
    ∀ s ∈ r, ∀ q, onSeg q s.a s.b → ∃ e ∈ segs, Within (drift sr fuel) q e.a e.b := by
  unfold nodedEdges at he
  split at he
  · rename_i hem
    obtain rfl := Option.some.inj he
    rw [List.isEmpty_iff] at hem
    subst hem
    exact ⟨fun q _ => rfl, by simp⟩
  · have hlist := off_to_list ht hl hok hf he
    have hbox : InBox rangeBox (mergeIfNeeded (sortSegs segs)) := by
      have := start_ends hin
      exact ⟨start_sorted _, start_lt hl, this,
        fun s hs => ⟨(rangeBox_has _).2 (this s hs).1, (rangeBox_has _).2 (this s hs).2⟩⟩
    obtain ⟨w, c⟩ := splitLoop_drift tree fuel sr _ r hbox hlist
    have hM : ∀ s ∈ mergeIfNeeded (sortSegs segs), ∃ e ∈ segs, s.a = e.a ∧ s.b = e.b := by
      intro s hs
      obtain ⟨t, h1, h2⟩ := mergeIfNeeded_edges _ s hs
      exact ⟨t, (sortSegs_perm _).mem_iff.1 h1, h2⟩
    constructor
    · intro q hq
      have k1 := w _ isComp_off q (by
        intro s hs hw
        obtain ⟨e, he, h1, h2⟩ := hM s hs
        rw [h1, h2] at hw
        exact hq e he hw)
      rwa [segsWind_eq_segSum, segsWind_eq_segSum, start_sum isComp_off, ← segsWind_eq_segSum, ← segsWind_eq_segSum] at k1
    · intro s hs q hq
      obtain ⟨t, ht', w1, w2⟩ := c s hs
      obtain ⟨e, he, h1, h2⟩ := hM t ht'
      refine ⟨e, he, ?_⟩
      rw [← h1, ← h2]
      exact w1.segment w2 hq

/-- Every edge returned for drawn edges stays within `drift` of them, and the winding number of the result around points
farther away is exact. -/
theorem drawn_near {k : OffConfig} {x : Externals} (ha : OffAssumed k x) (hcl : CleanEdges x.clean) {cw : Bool} {minArea : Nat}
    {segs : List (Seg CountOff)} (hd : AllDrawn segs) (hb : Balanced CountOff.subj segs) (hz : ∀ e ∈ segs, e.a ≠ e.b)
    (hf : FragOk k.st k.sr segs) (hin : ∀ s ∈ segs, InRange s.a ∧ InRange s.b) {shapes : List (List (List Pt))}
    (h : offsetShapes k x cw minArea segs = some shapes) :
    ∀ c ∈ shapes.flatten, ∀ d ∈ polyEdges c, ∀ q, onSeg q d.1 d.2 → ∃ e ∈ segs, Within (drift k.sr k.fuel) q e.a e.b := by
  obtain ⟨r, g, V, h1, -, -, -, h2, h3⟩ := drawn_run ha hd hb hz hf h
  have hl : ∀ s ∈ segs, s.a < s.b := fun s hs => (hd s hs).lt (hz s hs)
  have hok : OffOk segs := ⟨(closed_iff_balanced _ _).2 hb, fun s hs => (hd s hs).nonempty⟩
  have e := (off_drift ha.tree hl hok hf hin h1).2
  intro c hcm d hd q hq
  obtain ⟨u, hu, hon⟩ := (h2.along cw hcl h3 c hcm d hd).2.on hq
  obtain ⟨s, hs, rfl⟩ := List.mem_map.1 hu
  obtain ⟨t, ht, rfl⟩ := List.mem_map.1 hs
  exact e t ht q hon

/-- Every vertex returned for drawn edges in the range of the integer algorithms is in this range. -/
theorem drawn_range {k : OffConfig} {x : Externals} (ha : OffAssumed k x) (hcl : CleanEdges x.clean) {cw : Bool} {minArea : Nat}
    {segs : List (Seg CountOff)} (hd : AllDrawn segs) (hb : Balanced CountOff.subj segs) (hz : ∀ e ∈ segs, e.a ≠ e.b)
    (hf : FragOk k.st k.sr segs) (hin : ∀ s ∈ segs, InRange s.a ∧ InRange s.b) {shapes : List (List (List Pt))}
    (h : offsetShapes k x cw minArea segs = some shapes) : ∀ c ∈ shapes.flatten, ∀ p ∈ c, InRange p := by
  obtain ⟨r, g, V, h1, -, -, -, h2, h3⟩ := drawn_run ha hd hb hz hf h
  have hl : ∀ s ∈ segs, s.a < s.b := fun s hs => (hd s hs).lt (hz s hs)
  have hr : ∀ s ∈ r, InRange s.a ∧ InRange s.b := by
    unfold nodedEdges at h1
    split at h1
    · rw [← Option.some.inj h1]; simp
    · exact (splitSegments_box k.st k.sr k.tree ha.tree rangeBox k.fuel _ r hl (fun s hs =>
        ⟨⟨(rangeBox_has _).2 (hin s hs).1, (hin s hs).1⟩, (rangeBox_has _).2 (hin s hs).2, (hin s hs).2⟩) h1).range
  intro c hcm p hp
  rw [← polyEdges_fst c] at hp
  obtain ⟨d, hd, rfl⟩ := List.mem_map.1 hp
  obtain ⟨u, hu, hon⟩ := (h2.along cw hcl h3 c hcm d hd).2.on (q := d.1.q)
    ⟨0, le_refl _, by norm_num, by unfold atParam Pt.q; simp⟩
  obtain ⟨s, hs, rfl⟩ := List.mem_map.1 hu
  obtain ⟨t, ht, rfl⟩ := List.mem_map.1 hs
  obtain ⟨a1, a2⟩ := hr t ht
  obtain ⟨τ, t0, t1, e1, e2⟩ := hon
  have key : ∀ a b v : Int, -2 ^ 30 < a → a < 2 ^ 30 → -2 ^ 30 < b → b < 2 ^ 30 → (v : ℚ) = a + τ * (b - a) →
      -2 ^ 30 < v ∧ v < 2 ^ 30 := by
    intro a b v h1 h2 h3 h4 h
    have h1' : (-2 ^ 30 : ℚ) < a := by exact_mod_cast h1
    have h2' : (a : ℚ) < 2 ^ 30 := by exact_mod_cast h2
    have h3' : (-2 ^ 30 : ℚ) < b := by exact_mod_cast h3
    have h4' : (b : ℚ) < 2 ^ 30 := by exact_mod_cast h4
    have r1 : (-2 ^ 30 : ℚ) < v := by
      rcases le_total (a : ℚ) b with h5 | h5 <;> rw [h] <;> nlinarith
    have r2 : (v : ℚ) < 2 ^ 30 := by
      rcases le_total (a : ℚ) b with h5 | h5 <;> rw [h] <;> nlinarith
    exact ⟨by exact_mod_cast r1, by exact_mod_cast r2⟩
  unfold InRange at a1 a2 ⊢
  have k1 := key t.a.x t.b.x d.1.x (by omega) (by omega) (by omega) (by omega) e1
  have k2 := key t.a.y t.b.y d.1.y (by omega) (by omega) (by omega) (by omega) e2
  omega

end IOverlay
