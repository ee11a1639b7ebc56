/-
The anchors of `decompose_contours` are the vertices at repeated points other than the largest point.
-/
import Verif.Divide
import Mathlib.Data.List.Induction

namespace IOverlay

instance : Std.Total IdPt.le := ⟨fun a b => by
  unfold IdPt.le
  rcases Pt.lt_tri a.pt b.pt with h | h | h
  · exact Or.inl (Or.inl h)
  · rcases Nat.le_total a.id b.id with h' | h'
    · exact Or.inl (Or.inr ⟨h, h'⟩)
    · exact Or.inr (Or.inr ⟨h.symm, h'⟩)
  · exact Or.inr (Or.inl h)⟩

instance : IsTrans IdPt IdPt.le := ⟨fun a b c h1 h2 => by
  unfold IdPt.le at *
  rcases h1 with h1 | ⟨h1, h1'⟩ <;> rcases h2 with h2 | ⟨h2, h2'⟩
  · exact Or.inl (Pt.lt_trans h1 h2)
  · exact Or.inl (h2 ▸ h1)
  · exact Or.inl (h1 ▸ h2)
  · exact Or.inr ⟨h1.trans h2, h1'.trans h2'⟩⟩

instance : Std.Total IdPt.idLe := ⟨fun a b => Nat.le_total a.id b.id⟩
instance : IsTrans IdPt IdPt.idLe := ⟨fun _ _ _ h1 h2 => Nat.le_trans h1 h2⟩

theorem idPts_length (c : List Pt) : (idPts c).length = c.length := by simp [idPts]

theorem idPts_pts (c : List Pt) : (idPts c).map IdPt.pt = c := by
  unfold idPts
  rw [List.map_map]
  exact List.zipIdx_map_fst 0 c

theorem idPts_append (c : List Pt) (p : Pt) : idPts (c ++ [p]) = idPts c ++ [⟨c.length, p⟩] := by
  unfold idPts
  rw [List.zipIdx_append]; simp

theorem idPts_ids (c : List Pt) : (idPts c).Pairwise (fun a b => a.id < b.id) := by
  induction c using List.reverseRecOn with
  | nil => exact List.Pairwise.nil
  | append_singleton c p ih =>
    rw [idPts_append, List.pairwise_append]
    refine ⟨ih, by simp, ?_⟩
    intro a ha b hb
    rw [List.mem_singleton] at hb
    subst hb
    unfold idPts at ha
    obtain ⟨e, he, rfl⟩ := List.mem_map.1 ha
    have := List.snd_lt_of_mem_zipIdx he
    simpa using this

/-- What holds after the entries `done` of the sorted list. -/
structure AnchorInv (done : List IdPt) (st : AnchorScan) : Prop where
  split : ∃ pre grp, done = pre ++ grp ∧ grp.length = st.n + 1 ∧ (∀ a ∈ grp, a.pt = st.p0) ∧
    (∀ a ∈ pre, a.pt < st.p0) ∧ st.anchors = pre.filter fun a => decide (2 ≤ (pre.map IdPt.pt).count a.pt)

theorem anchorFold (s : List IdPt) (hs : s.Pairwise IdPt.le) : ∀ (rest done : List IdPt) (st : AnchorScan),
    s = done ++ rest → AnchorInv done st →
    AnchorInv s ((rest.zipIdx done.length).foldl (anchorStep s) st) := by
  intro rest
  induction rest with
  | nil => intro done st h hi; rw [h]; simpa using hi
  | cons e rest ih =>
    intro done st h hi
    rw [List.zipIdx_cons, List.foldl_cons]
    have h' : s = (done ++ [e]) ++ rest := by rw [h]; simp
    have := ih (done ++ [e]) (anchorStep s st (e, done.length)) h' ?_
    · simpa using this
    obtain ⟨pre, grp, h1, h2, h3, h4, h5⟩ := hi.split
    unfold anchorStep
    dsimp only
    by_cases hp : st.p0 = e.pt
    · rw [if_pos hp]
      refine ⟨pre, grp ++ [e], by rw [h1]; simp, by simp [h2], ?_, h4, h5⟩
      intro a ha
      rcases List.mem_append.1 ha with ha | ha
      · exact h3 a ha
      · rw [List.mem_singleton.1 ha]; exact hp.symm
    · rw [if_neg hp]
      have hle : ∀ a ∈ done, IdPt.le a e := by
        intro a ha
        rw [h, List.pairwise_append] at hs
        exact hs.2.2 a ha e (by simp)
      have hlt0 : st.p0 < e.pt := by
        obtain ⟨g, hg⟩ : ∃ g, g ∈ grp := by
          cases grp with
          | nil => simp at h2
          | cons g _ => exact ⟨g, by simp⟩
        have := hle g (by rw [h1]; simp [hg])
        rw [IdPt.le, h3 g hg] at this
        exact this.resolve_right fun h => hp h.1
      refine ⟨done, [e], rfl, rfl, by simp, ?_, ?_⟩
      · intro a ha
        rw [h1] at ha
        rcases List.mem_append.1 ha with ha | ha
        · exact Pt.lt_trans (h4 a ha) hlt0
        · rw [h3 a ha]; exact hlt0
      · have hsl : slice s (done.length - st.n - 1) done.length = grp := by
          unfold slice
          rw [h, List.take_left' rfl, h1]
          apply List.drop_left'
          rw [List.length_append, h2]; omega
        dsimp only
        rw [hsl]
        have hpre : ∀ a ∈ pre, (done.map IdPt.pt).count a.pt = (pre.map IdPt.pt).count a.pt := by
          intro a ha
          rw [h1, List.map_append, List.count_append]
          have : (grp.map IdPt.pt).count a.pt = 0 := by
            rw [List.count_eq_zero]
            intro hm
            obtain ⟨g, hg, e'⟩ := List.mem_map.1 hm
            rw [h3 g hg] at e'
            exact Pt.ne_of_lt (h4 a ha) e'.symm
          omega
        have hgrp : (done.map IdPt.pt).count st.p0 = st.n + 1 := by
          rw [h1, List.map_append, List.count_append]
          have z1 : (pre.map IdPt.pt).count st.p0 = 0 := by
            rw [List.count_eq_zero]
            intro hm
            obtain ⟨g, hg, e'⟩ := List.mem_map.1 hm
            exact Pt.ne_of_lt (h4 g hg) e'
          have z2 : (grp.map IdPt.pt).count st.p0 = st.n + 1 := by
            rw [← h2, ← List.length_map (f := IdPt.pt)]
            rw [List.count_eq_length]
            intro b hb
            obtain ⟨g, hg, e'⟩ := List.mem_map.1 hb
            rw [← e', h3 g hg]
          omega
        have hf : done.filter (fun a => decide (2 ≤ (done.map IdPt.pt).count a.pt)) =
            st.anchors ++ (if 0 < st.n then grp else []) := by
          conv_lhs => rw [show (List.filter (fun a => decide (2 ≤ (done.map IdPt.pt).count a.pt)) done) =
            List.filter (fun a => decide (2 ≤ (done.map IdPt.pt).count a.pt)) (pre ++ grp) by rw [← h1]]
          rw [List.filter_append, h5]
          congr 1
          · apply List.filter_congr
            intro a ha
            rw [hpre a ha]
          · by_cases hn : 0 < st.n
            · rw [if_pos hn, List.filter_eq_self]
              intro a ha
              rw [h3 a ha, hgrp]
              simp; omega
            · rw [if_neg hn, List.filter_eq_nil_iff]
              intro a ha
              rw [h3 a ha, hgrp]
              simp; omega
        rw [hf]
        by_cases hn : 0 < st.n
        · simp [hn]
        · simp [hn]

/-- `p` is the largest point of the contour. -/
def IsLargest (c : List Pt) (p : Pt) : Prop := p ∈ c ∧ ∀ q ∈ c, ¬ p < q

instance (c : List Pt) (p : Pt) : Decidable (IsLargest c p) :=
  inferInstanceAs (Decidable (_ ∧ _))

/-- `p` is repeated and not the largest point. -/
def IsAnchor (c : List Pt) (p : Pt) : Prop := 2 ≤ c.count p ∧ ¬ IsLargest c p

instance (c : List Pt) (p : Pt) : Decidable (IsAnchor c p) :=
  inferInstanceAs (Decidable (_ ∧ _))

theorem anchorScan_spec (s : List IdPt) (hs : s.Pairwise IdPt.le) :
    anchorScan s = s.filter fun a => decide (IsAnchor (s.map IdPt.pt) a.pt) := by
  unfold anchorScan
  cases s with
  | nil => rfl
  | cons a r =>
    dsimp only
    rw [List.zipIdx_cons, List.drop_succ_cons, List.drop_zero]
    have h := anchorFold (a :: r) hs r [a] ⟨a.pt, 0, []⟩ rfl ⟨[], [a], rfl, rfl, by simp, by simp, rfl⟩
    simp only [List.length_singleton] at h
    set st := List.foldl (anchorStep (a :: r)) ⟨a.pt, 0, []⟩ (r.zipIdx 1) with hst
    obtain ⟨pre, grp, h1, h2, h3, h4, h5⟩ := h.split
    have hcnt : ∀ b ∈ pre, ((a :: r).map IdPt.pt).count b.pt = (pre.map IdPt.pt).count b.pt := by
      intro b hb
      rw [h1, List.map_append, List.count_append]
      have : (grp.map IdPt.pt).count b.pt = 0 := by
        rw [List.count_eq_zero]
        intro hm
        obtain ⟨g, hg, e'⟩ := List.mem_map.1 hm
        rw [h3 g hg] at e'
        exact Pt.ne_of_lt (h4 b hb) e'.symm
      omega
    obtain ⟨g, hg⟩ : ∃ g, g ∈ grp := by
      cases grp with
      | nil => simp at h2
      | cons g _ => exact ⟨g, by simp⟩
    have hp0 : st.p0 ∈ (a :: r).map IdPt.pt := by
      rw [List.mem_map]
      exact ⟨g, by rw [h1]; simp [hg], h3 g hg⟩
    have hmax : IsLargest ((a :: r).map IdPt.pt) st.p0 := by
      refine ⟨hp0, ?_⟩
      intro q hq
      obtain ⟨b, hb, rfl⟩ := List.mem_map.1 hq
      rw [h1] at hb
      rcases List.mem_append.1 hb with hb | hb
      · exact Pt.lt_asymm (h4 b hb)
      · rw [h3 b hb]; exact Pt.lt_irrefl _
    rw [h5]
    conv_rhs => rw [show List.filter (fun b => decide (IsAnchor ((a :: r).map IdPt.pt) b.pt)) (a :: r) =
        List.filter (fun b => decide (IsAnchor ((a :: r).map IdPt.pt) b.pt)) (pre ++ grp) by rw [← h1]]
    rw [List.filter_append]
    have z : List.filter (fun b => decide (IsAnchor ((a :: r).map IdPt.pt) b.pt)) grp = [] := by
      rw [List.filter_eq_nil_iff]
      intro b hb
      rw [h3 b hb]
      simp only [decide_eq_true_eq]
      exact fun h => h.2 hmax
    rw [z, List.append_nil]
    apply List.filter_congr
    intro b hb
    rw [decide_eq_decide, IsAnchor, hcnt b hb]
    refine ⟨fun h => ⟨h, fun hl => hl.2 _ hp0 (h4 b hb)⟩, fun h => h.1⟩

theorem IsAnchor_perm {c d : List Pt} (h : c.Perm d) (p : Pt) : IsAnchor c p ↔ IsAnchor d p := by
  unfold IsAnchor IsLargest
  rw [h.count_eq, h.mem_iff]
  have : (∀ q ∈ c, ¬ p < q) ↔ ∀ q ∈ d, ¬ p < q := by
    constructor <;> intro h' q hq
    · exact h' q (h.mem_iff.2 hq)
    · exact h' q (h.mem_iff.1 hq)
  rw [this]

/-- The anchors are the vertices at repeated points other than the largest point, in order. -/
theorem anchorsOf_spec (c : List Pt) :
    anchorsOf c = (idPts c).filter fun a => decide (IsAnchor c a.pt) := by
  unfold anchorsOf
  set s := (idPts c).insertionSort IdPt.le with hs
  have hp : s.Perm (idPts c) := List.perm_insertionSort _ _
  rw [anchorScan_spec s (List.pairwise_insertionSort _ _)]
  have hc : (s.map IdPt.pt).Perm c := by
    have := hp.map IdPt.pt
    rwa [idPts_pts] at this
  have e : (fun a : IdPt => decide (IsAnchor (s.map IdPt.pt) a.pt)) = fun a => decide (IsAnchor c a.pt) := by
    funext a
    rw [decide_eq_decide]; exact IsAnchor_perm hc _
  rw [e]
  have hperm : ((s.filter fun a => decide (IsAnchor c a.pt)).insertionSort IdPt.idLe).Perm
      ((idPts c).filter fun a => decide (IsAnchor c a.pt)) :=
    (List.perm_insertionSort _ _).trans (hp.filter _)
  have hids : ((idPts c).filter fun a => decide (IsAnchor c a.pt)).Pairwise (fun a b => a.id < b.id) :=
    (idPts_ids c).sublist List.filter_sublist
  have hle : ((idPts c).filter fun a => decide (IsAnchor c a.pt)).Pairwise IdPt.idLe :=
    hids.imp fun h => Nat.le_of_lt h
  refine hperm.eq_of_pairwise ?_ (List.pairwise_insertionSort _ _) hle
  intro a b ha hb h1 h2
  have hid : a.id = b.id := Nat.le_antisymm h1 h2
  have ha' := hperm.mem_iff.1 ha
  have hinj := List.pairwise_iff_getElem.1 hids
  obtain ⟨i, hi, rfl⟩ := List.getElem_of_mem ha'
  obtain ⟨j, hj, rfl⟩ := List.getElem_of_mem hb
  rcases Nat.lt_trichotomy i j with h | h | h
  · have := hinj i j hi hj h; omega
  · subst h; rfl
  · have := hinj j i hj hi h; omega

end IOverlay
