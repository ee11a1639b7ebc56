/-
C64: rounding is local for clipping lines and for slicing too.
-/
import Verif.DriftString
import Verif.Props.Drift

namespace IOverlay
open WindingCount

/-! ### from the given shape and lines to the noded edges -/

/-- The count of an edge that is part of a line. -/
def CountStr.Line (c : CountStr) : Prop := c.back = true ∨ c.fwd = true

theorem passed_line : Passed CountStr.Line where
  add x y h := by
    simp only [CountStr.Line, WindingCount.add, Bool.or_eq_true] at h ⊢
    tauto
  invert x h := by simp only [CountStr.Line, WindingCount.invert] at h ⊢; tauto

theorem kept_line : Kept CountStr.Line where
  add x y h := by
    simp only [CountStr.Line, WindingCount.add, Bool.or_eq_true] at h ⊢
    tauto
  invert x h := by simp only [CountStr.Line, WindingCount.invert] at h ⊢; tauto
  some x h := by
    simp only [CountStr.Line, isNotEmpty] at h ⊢
    rcases h with h | h <;> simp [h]

theorem Near.within {d e : ℚ} {p q : QPt} {a b : Pt} (h : Near e q p) (hp : Within d p a b) : Within (d + e) q a b := by
  obtain ⟨o, h1, h2, h3⟩ := hp
  obtain ⟨h4, h5⟩ := h
  exact ⟨o, h1, (abs_sub_le q.x p.x o.x).trans (by linarith), (abs_sub_le q.y p.y o.y).trans (by linarith)⟩

theorem Near.between {d : ℚ} {q q' z : QPt} (h : Near d q q') (hz : z.Between q q') : Near d q z := by
  obtain ⟨s, s0, s1, hx, hy⟩ := hz
  obtain ⟨h1, h2⟩ := h
  have key : ∀ A B : ℚ, |A - B| ≤ d → |A - (A + s * (B - A))| ≤ d := by
    intro A B h
    have : A - (A + s * (B - A)) = s * (A - B) := by ring
    rw [this, abs_mul, abs_of_nonneg s0]
    have := abs_nonneg (A - B)
    nlinarith
  exact ⟨by rw [hx]; exact key _ _ h1, by rw [hy]; exact key _ _ h2⟩

section
variable {st : Strategy} {sr : SnapRadius} {tree : TreeOracle CountStr} (ht : tree.Ok) {fuel : Nat}
  {shape paths contours : List (List Pt)} (hf : FragOk st sr (stringSegments shape paths contours))
  {r : List (Seg CountStr)} (hns : ∀ c ∈ shape, NotClosedExplicitly c)
  (hin : ∀ c ∈ shape ++ paths ++ contours, ∀ p ∈ c, InRange p)
  (hr : nodedEdges st sr tree fuel (stringSegments shape paths contours) = some r) (hn : st = .list ∨ 2 < r.length)
include ht hf hns hin hr hn

/-- What the splitting phase does to the shape and to the lines. -/
structure StringDrift (d : ℚ) (shape paths contours : List (List Pt)) (r : List (Seg CountStr)) : Prop where
  /-- winding numbers change only close to the edges of the shape -/
  wind : ∀ q, (∀ e ∈ shape.flatMap polyEdges, ¬ Within d q e.1 e.2) → segsWind CountStr.subj r q = polysWind shape q
  /-- lines stay close to the given lines -/
  line : ∀ s ∈ r, s.c.Line → ∀ q, onSeg q s.a s.b → ∃ l ∈ userLines paths contours, Within d q l.1 l.2
  /-- and come close to all their points -/
  follows : ∀ l ∈ userLines paths contours, l.1 ≠ l.2 → ∀ q, onSeg q l.1 l.2 →
    ∃ s ∈ r, s.c.Line ∧ ∃ q', onSeg q' s.a s.b ∧ Near d q q'
  /-- every edge stays close to the given ones -/
  all : ∀ s ∈ r, ∀ q, onSeg q s.a s.b → ∃ e ∈ shape.flatMap polyEdges ++ userLines paths contours, Within d q e.1 e.2

theorem string_drift : StringDrift (drift sr fuel) shape paths contours r := by
  have hal := stringSegments_along (paths := paths) (contours := contours) hns
  unfold nodedEdges at hr
  split at hr
  · rename_i hem
    obtain rfl := Option.some.inj hr
    rw [List.isEmpty_iff] at hem
    refine ⟨fun q _ => ?_, by simp, ?_, by simp⟩
    · rw [← stringSegments_wind shape paths contours hns q, hem]
    · intro l hl hne
      obtain ⟨t, ht', -⟩ := (stringSegments_pieces shape paths contours l).2 ⟨hl, hne⟩
      rw [hem] at ht'; simp at ht'
  · have hlt := stringSegments_lt shape paths contours
    have hlist := noded_to_list_many ht hlt hf hn hr
    have hbox : InBox rangeBox (mergeIfNeeded (sortSegs (stringSegments shape paths contours))) := by
      have := start_ends (stringSegments_ends (P := InRange) hin)
      exact ⟨start_sorted _, start_lt hlt, this,
        fun s hs => ⟨(rangeBox_has _).2 (this s hs).1, (rangeBox_has _).2 (this s hs).2⟩⟩
    obtain ⟨w, c, f⟩ := splitLoop_drift_sel tree fuel sr _ r hbox hlist
    have hM : ∀ {P : CountStr → Prop}, Passed P → ∀ {E : List (Pt × Pt)},
        (∀ s ∈ stringSegments shape paths contours, P s.c → ∀ q, onSeg q s.a s.b → ∃ e ∈ E, onSeg q e.1 e.2) →
        ∀ s ∈ mergeIfNeeded (sortSegs (stringSegments shape paths contours)), P s.c → ∀ q d,
        Within d q s.a s.b → ∃ e ∈ E, Within d q e.1 e.2 := by
      rintro P hP E hE s hs hPs q d ⟨p, hp, p1, p2⟩
      obtain ⟨t, h1, h2, h3, h4⟩ := mergeIfNeeded_passed hP _ s hs hPs
      rw [h2, h3] at hp
      obtain ⟨e, he, hon⟩ := hE t ((sortSegs_perm _).mem_iff.1 h1) h4 p hp
      exact ⟨e, he, p, hon, p1, p2⟩
    have hshape : ∀ s ∈ stringSegments shape paths contours, s.c.subj ≠ 0 → ∀ q, onSeg q s.a s.b →
        ∃ e ∈ shape.flatMap polyEdges, onSeg q e.1 e.2 := by
      intro s hs h0 q hq
      unfold stringSegments at hs
      rcases List.mem_append.1 hs with hs | hs
      · rcases List.mem_append.1 hs with hs | hs
        · obtain ⟨c, hc, h⟩ := List.mem_flatMap.1 hs
          obtain ⟨e, he, h⟩ := (appendPath_along _ _ c (hns c hc) s h).on hq
          exact ⟨e, List.mem_flatMap.2 ⟨c, hc, he⟩, h⟩
        · obtain ⟨c, -, h⟩ := List.mem_flatMap.1 hs
          exact absurd ((C27_string_path c).2 s h).2.1 h0
      · obtain ⟨c, -, h⟩ := List.mem_flatMap.1 hs
        exact absurd ((C27_string_contour c).2 s h).2.1 h0
    have hline : ∀ s ∈ stringSegments shape paths contours, s.c.Line → ∀ q, onSeg q s.a s.b →
        ∃ e ∈ userLines paths contours, onSeg q e.1 e.2 := by
      rintro s hs (h | h) q hq
      · have := (stringSegments_pieces shape paths contours _).1 ⟨s, hs, (mem_pieces _ s.a s.b).2 (Or.inl ⟨h, rfl, rfl⟩)⟩
        exact ⟨_, this.1, hq⟩
      · have := (stringSegments_pieces shape paths contours _).1 ⟨s, hs, (mem_pieces _ s.b s.a).2 (Or.inr ⟨h, rfl, rfl⟩)⟩
        exact ⟨_, this.1, onSeg_symm hq⟩
    refine ⟨?_, ?_, ?_, ?_⟩
    · intro q hq
      have k1 := w _ isComp_strSubj q (by
        intro s hs h0 hw
        obtain ⟨e, he, hw⟩ := hM (Passed.comp isComp_strSubj) hshape s hs h0 q _ hw
        exact hq e he hw)
      rw [segsWind_eq_segSum, segsWind_eq_segSum, start_sum isComp_strSubj, ← segsWind_eq_segSum, ← segsWind_eq_segSum] at k1
      rw [k1]
      exact stringSegments_wind shape paths contours hns q
    · intro s hs hL q hq
      obtain ⟨t, ht', hL', w1, w2⟩ := c _ passed_line s hs hL
      exact hM passed_line hline t ht' hL' q _ (w1.segment w2 hq)
    · intro l hl hne q hq
      obtain ⟨t, ht', hp⟩ := (stringSegments_pieces shape paths contours l).2 ⟨hl, hne⟩
      obtain ⟨u, v⟩ := l
      have hL : t.c.Line ∧ onSeg q t.a t.b := by
        rcases (mem_pieces t u v).1 hp with ⟨h, rfl, rfl⟩ | ⟨h, rfl, rfl⟩
        · exact ⟨Or.inl h, hq⟩
        · exact ⟨Or.inr h, onSeg_symm hq⟩
      obtain ⟨s, h1, h2, h3, h4⟩ := mergeIfNeeded_kept kept_line _ t ((sortSegs_perm _).mem_iff.2 ht') hL.1
      exact f _ kept_line s h1 h4 q (by rw [h2, h3]; exact hL.2)
    · intro s hs q hq
      obtain ⟨t, ht', -, w1, w2⟩ := c (fun _ => True) ⟨fun _ _ _ => Or.inl trivial, fun _ _ => trivial⟩ s hs trivial
      exact hM (P := fun _ => True) ⟨fun _ _ _ => Or.inl trivial, fun _ _ => trivial⟩
        (fun s hs _ q hq => (hal s hs).on hq) t ht' trivial q _ (w1.segment w2 hq)

end

/-- An edge contains inner points close to each of its points. -/
theorem inner_near {q : QPt} {a b : Pt} (h : onSeg q a b) {η : ℚ} (hη : 0 < η) : ∃ m, inSeg m a b ∧ Near η q m := by
  obtain ⟨t, t0, t1, hx, hy⟩ := h
  have key : ∃ k : ℚ, 0 < k ∧ k ≤ 1 ∧ k * (|(b.x : ℚ) - a.x| + |(b.y : ℚ) - a.y|) ≤ η := by
    have n1 := abs_nonneg ((b.x : ℚ) - a.x)
    have n2 := abs_nonneg ((b.y : ℚ) - a.y)
    generalize |(b.x : ℚ) - a.x| + |(b.y : ℚ) - a.y| = S at *
    rcases le_total (S) η with h | h
    · exact ⟨1, by norm_num, le_refl _, by linarith⟩
    · have hS : 0 < S := by linarith
      exact ⟨η / S, div_pos hη hS, by rw [div_le_one hS]; exact h, by field_simp; exact le_refl _⟩
  obtain ⟨k, k0, k1, hk⟩ := key
  have n1 := abs_nonneg ((b.x : ℚ) - a.x)
  have n2 := abs_nonneg ((b.y : ℚ) - a.y)
  have half : |(t - (t + k * (1 / 2 - t)))| ≤ k := by
    rw [abs_le]; constructor <;> nlinarith
  refine ⟨⟨a.x + (t + k * (1 / 2 - t)) * (b.x - a.x), a.y + (t + k * (1 / 2 - t)) * (b.y - a.y)⟩,
    ⟨t + k * (1 / 2 - t), by nlinarith, by nlinarith, rfl, rfl⟩, ?_, ?_⟩
  · dsimp only
    rw [hx]
    have e : (a.x : ℚ) + t * (b.x - a.x) - (a.x + (t + k * (1 / 2 - t)) * (b.x - a.x)) =
        (t - (t + k * (1 / 2 - t))) * (b.x - a.x) := by ring
    rw [e, abs_mul]
    nlinarith
  · dsimp only
    rw [hy]
    have e : (a.y : ℚ) + t * (b.y - a.y) - (a.y + (t + k * (1 / 2 - t)) * (b.y - a.y)) =
        (t - (t + k * (1 / 2 - t))) * (b.y - a.y) := by ring
    rw [e, abs_mul]
    nlinarith

/-- Points close to a point far from the edges are classified like it. -/
theorem near_wind {d η : ℚ} {q q' : QPt} {shape : List (List Pt)} (hn : Near η q q') (hη : η ≤ d)
    (hq : ∀ e ∈ shape.flatMap polyEdges, ¬ Within d q e.1 e.2) : polysWind shape q = polysWind shape q' := by
  refine polysWind_const fun e he p hp hb => hq e he ?_
  have := (hn.between hb).within (Within.of_on hp)
  exact this.mono (by linarith)

/-! ### C64 -/

section
variable (clip : ClipRule) (rule : FillRule) {st : Strategy} {sr : SnapRadius} {tree : TreeOracle CountStr} (ht : tree.Ok)
  {sc : ScanOracle CountStr} (hsc : sc.Ok) {fuel : Nat} {sortE : List End → List End} (hE : EndSort sortE)
  {shape paths contours : List (List Pt)} (hf : FragOk st sr (stringSegments shape paths contours))
  (hns : ∀ c ∈ shape, NotClosedExplicitly c) (hin : ∀ c ∈ shape ++ paths ++ contours, ∀ p ∈ c, InRange p)
  (hn : st = .list ∨ ∀ r, nodedEdges st sr tree fuel (stringSegments shape paths contours) = some r → 2 < r.length)
  {out : List (List Pt)}
  (h : clipLines clip rule st sr tree sc fuel sortE (stringSegments shape paths contours) = some out)
include ht hsc hE hf hns hin hn h

theorem clip_run : ∃ r K, StringDrift (drift sr fuel) shape paths contours r ∧
    (out.flatMap fun p => p.zip p.tail).Perm ((r.filter K).flatMap Seg.pieces) ∧
    ∀ s ∈ r, s.c.Line → ∀ q, onSeg q s.a s.b → ∀ d', drift sr fuel < d' →
      (∀ e ∈ shape.flatMap polyEdges, ¬ Within d' q e.1 e.2) →
      (K s = true ↔ (rule.inside (polysWind shape q) = true ↔ clip.invert = false)) := by
  obtain ⟨r, hr⟩ : ∃ r, nodedEdges st sr tree fuel (stringSegments shape paths contours) = some r := by
    unfold clipLines buildString at h
    unfold nodedEdges
    split
    · exact ⟨_, rfl⟩
    · rename_i he
      rw [if_neg he] at h
      rcases e : splitSegments st sr tree fuel (stringSegments shape paths contours) with _ | r
      · rw [e] at h; simp at h
      · exact ⟨r, rfl⟩
  have hn' : st = .list ∨ 2 < r.length := hn.imp_right fun h => h r hr
  have D := string_drift ht hf hns hin hr hn'
  obtain ⟨out', K, h1, -, h3, h4⟩ := C29_clip clip rule st sr tree ht sc hsc fuel sortE hE shape paths contours hf r hr hn'
  rw [h] at h1
  obtain rfl := Option.some.inj h1
  refine ⟨r, K, D, h3, ?_⟩
  intro s hs hL q hq d' hd hfar
  have hη : 0 < (d' - drift sr fuel) / 2 := by linarith
  obtain ⟨m, hm, n1⟩ := inner_near hq hη
  obtain ⟨ε, e0, he⟩ := h4 s hs hL m hm
  obtain ⟨δ, d0, d1, d2⟩ : ∃ δ : ℚ, 0 < δ ∧ δ < ε ∧ δ ≤ (d' - drift sr fuel) / 2 := by
    rcases le_total (ε / 2) ((d' - drift sr fuel) / 2) with h | h
    · exact ⟨ε / 2, by linarith, by linarith, h⟩
    · exact ⟨_, hη, by linarith, le_refl _⟩
  have k0 := he δ d0 d1
  have ab : |δ| ≤ (d' - drift sr fuel) / 2 := by rw [abs_of_pos d0]; exact d2
  have ab' : |-δ| ≤ (d' - drift sr fuel) / 2 := by rw [abs_neg]; exact ab
  have nl : Near ((d' - drift sr fuel) / 2) m (leftOf s.a s.b m δ) := by
    unfold leftOf
    split
    · exact ⟨by simpa using ab, by simpa using hη.le⟩
    · exact ⟨by simpa using hη.le, by simpa using ab'⟩
  have nr : Near ((d' - drift sr fuel) / 2) m (rightOf s.a s.b m δ) := by
    unfold rightOf
    split
    · exact ⟨by simpa using ab', by simpa using hη.le⟩
    · exact ⟨by simpa using hη.le, by simpa using ab⟩
  have dn := drift_nonneg fuel sr
  have val : ∀ z, Near ((d' - drift sr fuel) / 2) m z → segsWind CountStr.subj r z = polysWind shape q := by
    intro z hz
    have hqz := n1.trans hz
    rw [D.wind z ?_, near_wind hqz (by linarith) hfar]
    intro e he hw
    exact hfar e he ((hqz.within hw).mono (by linarith))
  rw [val _ nl, val _ nr] at k0
  rw [k0]
  unfold CountsInside
  simp

/-- C64 (clipping): every point of a returned line is within `drift` of a given line; farther than that from the edges of
the shape it is inside the given shape (outside if `invert` is on). -/
theorem C64_clip : ∀ p ∈ out, ∀ e ∈ p.zip p.tail, ∀ q, onSeg q e.1 e.2 →
    (∃ l ∈ userLines paths contours, Within (drift sr fuel) q l.1 l.2) ∧
    ∀ d', drift sr fuel < d' → (∀ e ∈ shape.flatMap polyEdges, ¬ Within d' q e.1 e.2) →
      rule.inside (polysWind shape q) = !clip.invert := by
  obtain ⟨r, K, D, h3, h4⟩ := clip_run clip rule ht hsc hE hf hns hin hn h
  intro p hp e he q hq
  have : e ∈ (r.filter K).flatMap Seg.pieces := h3.mem_iff.1 (List.mem_flatMap.2 ⟨p, hp, he⟩)
  obtain ⟨s, hs, hes⟩ := List.mem_flatMap.1 this
  obtain ⟨hs, hK⟩ := List.mem_filter.1 hs
  obtain ⟨u, v⟩ := e
  have hL : s.c.Line ∧ onSeg q s.a s.b := by
    rcases (mem_pieces s u v).1 hes with ⟨h, rfl, rfl⟩ | ⟨h, rfl, rfl⟩
    · exact ⟨Or.inl h, hq⟩
    · exact ⟨Or.inr h, onSeg_symm hq⟩
  refine ⟨D.line s hs hL.1 q hL.2, fun d' hd hfar => ?_⟩
  have := (h4 s hs hL.1 q hL.2 d' hd hfar).1 hK
  cases h1 : rule.inside (polysWind shape q) <;> cases h2 : clip.invert <;> simp_all

/-- C64 (clipping, nothing is lost): if a point of a given line is farther than twice `drift` from the edges of the shape
and inside the given shape (outside if `invert` is on), then a returned line passes within `drift` of it. -/
theorem C64_clip_kept : ∀ l ∈ userLines paths contours, l.1 ≠ l.2 → ∀ q, onSeg q l.1 l.2 →
    ∀ d', 2 * drift sr fuel < d' → (∀ e ∈ shape.flatMap polyEdges, ¬ Within d' q e.1 e.2) →
    rule.inside (polysWind shape q) = (!clip.invert) →
    ∃ p ∈ out, ∃ e ∈ p.zip p.tail, ∃ q', onSeg q' e.1 e.2 ∧ Near (drift sr fuel) q q' := by
  obtain ⟨r, K, D, h3, h4⟩ := clip_run clip rule ht hsc hE hf hns hin hn h
  intro l hl hne q hq d' hd hfar hi
  obtain ⟨s, hs, hL, q', hq', hnear⟩ := D.follows l hl hne q hq
  have dn := drift_nonneg fuel sr
  have hK : K s = true := by
    refine (h4 s hs hL q' hq' (d' - drift sr fuel) (by linarith) ?_).2 ?_
    · intro e he hw
      exact hfar e he ((hnear.within hw).mono (by linarith))
    · rw [← near_wind hnear (by linarith) hfar, hi]
      cases clip.invert <;> simp
  have hm : s ∈ r.filter K := List.mem_filter.2 ⟨hs, hK⟩
  obtain ⟨e, he, hon⟩ : ∃ e ∈ s.pieces, onSeg q' e.1 e.2 := by
    rcases hL with h | h
    · exact ⟨(s.a, s.b), (mem_pieces _ _ _).2 (Or.inl ⟨h, rfl, rfl⟩), hq'⟩
    · exact ⟨(s.b, s.a), (mem_pieces _ _ _).2 (Or.inr ⟨h, rfl, rfl⟩), onSeg_symm hq'⟩
  have := h3.mem_iff.2 (List.mem_flatMap.2 ⟨s, hm, he⟩)
  obtain ⟨p, hp, hep⟩ := List.mem_flatMap.1 this
  exact ⟨p, hp, e, hep, q', hon, hnear⟩

end

/-- C64 (slicing): the pieces wind exactly once around every point inside the given shape, and not at all around the others,
for all points that are not within `drift` of an edge of the shape; and every point of an edge of a piece is within `drift` of
an edge of the shape or a cutting line. -/
theorem C64_slice (x : Externals) (order : List Pt → Bool) (ho : OrderOk order) (rule : FillRule) (st : Strategy)
    (sr : SnapRadius) (tree : TreeOracle CountStr) (ht : tree.Ok) (sc : ScanOracle CountStr) (hsc : sc.Ok) (fuel : Nat)
    (hE : EndSort x.sortE) (shape paths contours : List (List Pt))
    (hf : FragOk st sr (stringSegments shape paths contours))
    (hns : ∀ c ∈ shape, NotClosedExplicitly c) (hin : ∀ c ∈ shape ++ paths ++ contours, ∀ p ∈ c, InRange p)
    (hn : st = .list ∨ ∀ r, nodedEdges st sr tree fuel (stringSegments shape paths contours) = some r → 2 < r.length)
    (shapes : List (List (List Pt)))
    (h : sliceBy x order rule st sr tree sc fuel shape paths contours = some shapes) :
    (∀ q, (∀ e ∈ shape.flatMap polyEdges, ¬ Within (drift sr fuel) q e.1 e.2) →
      polysWind shapes.flatten q = if rule.inside (polysWind shape q) then 1 else 0) ∧
    ∀ c ∈ shapes.flatten, ∀ e ∈ polyEdges c, ∀ q, onSeg q e.1 e.2 →
      ∃ d ∈ shape.flatMap polyEdges ++ userLines paths contours, Within (drift sr fuel) q d.1 d.2 := by
  obtain ⟨r, hr⟩ : ∃ r, nodedEdges st sr tree fuel (stringSegments shape paths contours) = some r := by
    unfold sliceBy stringGraph buildString at h
    unfold nodedEdges
    split
    · exact ⟨_, rfl⟩
    · rename_i he
      rw [if_neg he] at h
      rcases e : splitSegments st sr tree fuel (stringSegments shape paths contours) with _ | r
      · rw [e] at h; simp at h
      · exact ⟨r, rfl⟩
  have hn' : st = .list ∨ 2 < r.length := hn.imp_right fun h => h r hr
  have D := string_drift ht hf hns hin hr hn'
  obtain ⟨-, h2, h3, -, -⟩ := C58_slice_shapes x order ho rule st sr tree ht sc hsc fuel hE shape paths contours hf r hr hn'
    shapes h
  refine ⟨fun q hq => by rw [h3, D.wind q hq], ?_⟩
  intro c hc e he q hq
  rcases (h2 c hc).along e he with h | h
  · obtain ⟨s, hs, rfl⟩ := List.mem_map.1 h
    exact D.all s hs q hq
  · obtain ⟨s, hs, hse⟩ := List.mem_map.1 h
    have : e = (s.b, s.a) := by rw [← Prod.swap_swap e, ← hse]; rfl
    subst this
    exact D.all s hs q (onSeg_symm hq)

/-! ### examples -/

/-- A triangle and two lines, none of which crosses it in a whole point. -/
def driftShape : List (List Pt) := [[⟨0, 0⟩, ⟨71, 0⟩, ⟨71, 50⟩]]
def driftLines : List (List Pt) := [[⟨20, -30⟩, ⟨33, 40⟩], [⟨40, 20⟩, ⟨60, 10⟩, ⟨90, 41⟩]]

/-- Two rounds of splitting: the hypotheses of `C64_clip` and `C64_clip_kept` are met; the point (192/7, 10) of the first
line is farther than twice `drift` from the edges of the triangle, and inside. -/
example :
    let out : List (List Pt) := [[⟨25, 0⟩, ⟨29, 21⟩], [⟨40, 20⟩, ⟨60, 10⟩, ⟨71, 21⟩]]
    clipLines ⟨false, true⟩ .nonZero .list ⟨0, 1⟩ (bruteTree CountStr) listScanOracle 2 exRaw.sortE
      (stringSegments driftShape driftLines []) = some out ∧
    (⟨20, -30⟩, ⟨33, 40⟩) ∈ userLines driftLines [] ∧ onSeg ⟨192 / 7, 10⟩ ⟨20, -30⟩ ⟨33, 40⟩ ∧
    2 * drift ⟨0, 1⟩ 2 < 9 / 2 ∧ (∀ e ∈ driftShape.flatMap polyEdges, ¬ Within (9 / 2) ⟨192 / 7, 10⟩ e.1 e.2) ∧
    FillRule.nonZero.inside (polysWind driftShape ⟨192 / 7, 10⟩) = true ∧
    ∃ p ∈ out, ∃ e ∈ p.zip p.tail, ∃ q', onSeg q' e.1 e.2 ∧ Near (drift ⟨0, 1⟩ 2) ⟨192 / 7, 10⟩ q' := by
  intro out
  have h1 : clipLines ⟨false, true⟩ .nonZero .list ⟨0, 1⟩ (bruteTree CountStr) listScanOracle 2 exRaw.sortE
      (stringSegments driftShape driftLines []) = some out := by decide +kernel
  have h2 : ((⟨20, -30⟩, ⟨33, 40⟩) : Pt × Pt) ∈ userLines driftLines [] := by decide
  have h3 : onSeg ⟨192 / 7, 10⟩ ⟨20, -30⟩ ⟨33, 40⟩ := ⟨4 / 7, by norm_num, by norm_num, by norm_num, by norm_num⟩
  have h4 : 2 * drift ⟨0, 1⟩ 2 < 9 / 2 := by rw [C63_high.2.1]; norm_num
  have h5 : ∀ e ∈ driftShape.flatMap polyEdges, ¬ Within (9 / 2) ⟨192 / 7, 10⟩ e.1 e.2 := by
    have hm : driftShape.flatMap polyEdges = [(⟨0, 0⟩, ⟨71, 0⟩), (⟨71, 0⟩, ⟨71, 50⟩), (⟨71, 50⟩, ⟨0, 0⟩)] := by decide
    rw [hm]
    simp only [List.mem_cons, List.not_mem_nil, or_false]
    rintro e (rfl | rfl | rfl) ⟨p, ⟨t, t0, t1, px, py⟩, d1, d2⟩ <;>
      · rw [abs_le] at d1 d2
        dsimp only at px py
        norm_num at px py
        linarith [d1.1, d1.2, d2.1, d2.2]
  have h6 : FillRule.nonZero.inside (polysWind driftShape ⟨192 / 7, 10⟩) = true := by
    have e1 : polysWind driftShape ⟨192 / 7, 10⟩ = 1 := by
      simp only [driftShape, polysWind, polyWind, polyEdges, edgeWind, aboveLine]; norm_num
    rw [e1]; decide
  exact ⟨h1, h2, h3, h4, h5, h6, C64_clip_kept ⟨false, true⟩ .nonZero bruteTree_ok listScanOracle_ok
    exRaw_assumed.1.sortE (FragOk.list _ _) (by decide) (by unfold InRange; decide) (Or.inl rfl) h1 _ h2 (by decide) _ h3 _ h4
    h5 h6⟩

/-- The same shape, sliced by the lines. -/
example : (∀ c ∈ driftShape, NotClosedExplicitly c) ∧ (∀ c ∈ driftShape ++ driftLines ++ [], ∀ p ∈ c, InRange p) ∧
    sliceBy exRaw exOrder .nonZero .list ⟨0, 1⟩ (bruteTree CountStr) listScanOracle 2 driftShape driftLines [] =
      some [[[⟨0, 0⟩, ⟨25, 0⟩, ⟨29, 21⟩]], [[⟨71, 0⟩, ⟨71, 21⟩, ⟨71, 50⟩, ⟨29, 21⟩, ⟨25, 0⟩]]] :=
  ⟨by decide, by unfold InRange; decide, by decide +kernel⟩

end IOverlay
