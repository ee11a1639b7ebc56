/-
C56: if all crossings are whole points - in particular for contours with horizontal and vertical edges only - the
result is exact, whatever strategy and precision are chosen.
-/
import Verif.Whole
import Verif.Props.Orient
import Verif.Props.Attach

namespace IOverlay

/-- The noded edges wind around every point as the given contours do, for every strategy and precision. -/
theorem noded_whole {st : Strategy} {sr : SnapRadius} {tree : TreeOracle CountBool} (ht : tree.Ok) {fuel : Nat}
    {subj clip : List (List Pt)} {segs : List (Seg CountBool)}
    (hf : FragOk st sr (overlaySegments subj clip : List (Seg CountBool)))
    (hns : ∀ c ∈ subj, NotClosedExplicitly c) (hnc : ∀ c ∈ clip, NotClosedExplicitly c)
    (hin : ∀ c ∈ subj ++ clip, ∀ p ∈ c, InRange p) (hw : WholeCrossings ((subj ++ clip).flatMap polyEdges))
    (he : nodedEdges st sr tree fuel (overlaySegments subj clip) = some segs) (q : QPt) :
    segsWind CountBool.subj segs q = polysWind subj q ∧ segsWind CountBool.clip segs q = polysWind clip q := by
  have hx := overlay_not_round hns hnc hin hw sr.radius
  have hl : ∃ n, nodedEdges .list sr tree n (overlaySegments subj clip) = some segs := by
    unfold nodedEdges at he ⊢
    split at he
    · rename_i hem
      simp only [hem, if_true]
      exact ⟨0, he⟩
    · rename_i hem
      obtain ⟨n, hn⟩ := (C38_strategies_agree_partial st .list sr tree ht subj clip hf (FragOk.list sr _) segs).1 ⟨fuel, he⟩
      simp only [hem]
      exact ⟨n, hn⟩
  obtain ⟨n, hn⟩ := hl
  exact noded_input sr tree n subj clip segs hns hnc hx hn q

/-- C56 (one-shot overlay): if the edges of the given contours cross in whole points only, the result winds once, in the
requested direction, around exactly the points for which the overlay rule holds for "inside subject" and "inside clip" by
the fill rule on the winding numbers of the given contours. -/
theorem C56_overlay (k : Config) (x : Externals) (ha : Assumed k x) (r : OverlayRule) (rule : FillRule)
    (cw : Bool) (subj clip : List (List Pt)) (hf : FragFor k subj clip)
    (hns : ∀ c ∈ subj, NotClosedExplicitly c) (hnc : ∀ c ∈ clip, NotClosedExplicitly c)
    (hin : ∀ c ∈ subj ++ clip, ∀ p ∈ c, InRange p) (hw : WholeCrossings ((subj ++ clip).flatMap polyEdges))
    (shapes : List (List (List Pt)))
    (h : overlayCustom k x r rule cw 0 (overlaySegments subj clip) = some shapes) (q : QPt) :
    polysWind shapes.flatten q =
      outerTurn cw * if r.op (rule.inside (polysWind subj q)) (rule.inside (polysWind clip q)) then 1 else 0 := by
  obtain ⟨-, segs, h1, h2⟩ := C41_overlay k x ha r rule cw subj clip hf shapes h
  have e := noded_whole ha.tree hf hns hnc hin hw h1 q
  rw [h2, e.1, e.2]

/-- C56 (prebuilt graph, any rule extracted from it). -/
theorem C56_graph (k : Config) (x : Externals) (ha : Assumed k x) (r : OverlayRule) (rule : FillRule)
    (cw : Bool) (subj clip : List (List Pt)) (hf : FragFor k subj clip)
    (hns : ∀ c ∈ subj, NotClosedExplicitly c) (hnc : ∀ c ∈ clip, NotClosedExplicitly c)
    (hin : ∀ c ∈ subj ++ clip, ∀ p ∈ c, InRange p) (hw : WholeCrossings ((subj ++ clip).flatMap polyEdges))
    (g : Graph) (shapes : List (List (List Pt)))
    (hg : intoGraph k x rule (overlaySegments subj clip) = some g)
    (h : extractShapesCustom x g r cw 0 = some shapes) (q : QPt) :
    polysWind shapes.flatten q =
      outerTurn cw * if r.op (rule.inside (polysWind subj q)) (rule.inside (polysWind clip q)) then 1 else 0 := by
  obtain ⟨-, segs, h1, h2⟩ := C41_graph k x ha r rule cw subj clip hf g shapes hg h
  have e := noded_whole ha.tree hf hns hnc hin hw h1 q
  rw [h2, e.1, e.2]

/-! ### horizontal and vertical edges -/

/-- Every edge of the closed polygon is horizontal or vertical. -/
def Rectilinear (c : List Pt) : Prop := ∀ e ∈ polyEdges c, e.1.x = e.2.x ∨ e.1.y = e.2.y

instance (c : List Pt) : Decidable (Rectilinear c) := by unfold Rectilinear; infer_instance

theorem inSeg_vertical {q : QPt} {a b : Pt} (h : inSeg q a b) (hx : a.x = b.x) : q.x = a.x := by
  obtain ⟨t, _, _, h1, _⟩ := h
  rw [h1, hx]; ring

theorem inSeg_horizontal {q : QPt} {a b : Pt} (h : inSeg q a b) (hy : a.y = b.y) : q.y = a.y := by
  obtain ⟨t, _, _, _, h1⟩ := h
  rw [h1, hy]; ring

/-- C56: horizontal and vertical edges cross in whole points. -/
theorem wholeCrossings_axis {es : List (Pt × Pt)} (h : ∀ e ∈ es, e.1.x = e.2.x ∨ e.1.y = e.2.y) : WholeCrossings es := by
  have mk : ∀ (q : QPt) (u v : Int), q.x = u → q.y = v → ∃ p : Pt, q = p.q := fun q u v hu hv =>
    ⟨⟨u, v⟩, QPt.ext' (by rw [hu]; rfl) (by rw [hv]; rfl)⟩
  intro e he f hf hn q q1 q2
  rcases h e he with ex | ey <;> rcases h f hf with fx | fy
  · exfalso
    have h1 := inSeg_vertical q1 ex
    have h2 := inSeg_vertical q2 fx
    rw [h1] at h2
    have h3 : e.1.x = f.1.x := by exact_mod_cast h2
    rcases hn with hn | hn <;> apply hn <;> unfold area2
    · rw [← ex, ← h3]; ring
    · rw [← ex, ← fx, ← h3]; ring
  · exact mk q _ _ (inSeg_vertical q1 ex) (inSeg_horizontal q2 fy)
  · exact mk q _ _ (inSeg_vertical q2 fx) (inSeg_horizontal q1 ey)
  · exfalso
    have h1 := inSeg_horizontal q1 ey
    have h2 := inSeg_horizontal q2 fy
    rw [h1] at h2
    have h3 : e.1.y = f.1.y := by exact_mod_cast h2
    rcases hn with hn | hn <;> apply hn <;> unfold area2
    · rw [← ey, ← h3]; ring
    · rw [← ey, ← fy, ← h3]; ring

theorem wholeCrossings_rectilinear {cs : List (List Pt)} (h : ∀ c ∈ cs, Rectilinear c) :
    WholeCrossings (cs.flatMap polyEdges) := by
  apply wholeCrossings_axis
  intro e he
  obtain ⟨c, hc, hec⟩ := List.mem_flatMap.1 he
  exact h c hc e hec

/-- C56: for contours with horizontal and vertical edges every boolean operation is exact. -/
theorem C56_rectilinear (k : Config) (x : Externals) (ha : Assumed k x) (r : OverlayRule) (rule : FillRule)
    (cw : Bool) (subj clip : List (List Pt)) (hf : FragFor k subj clip)
    (hns : ∀ c ∈ subj, NotClosedExplicitly c) (hnc : ∀ c ∈ clip, NotClosedExplicitly c)
    (hin : ∀ c ∈ subj ++ clip, ∀ p ∈ c, InRange p) (hr : ∀ c ∈ subj ++ clip, Rectilinear c)
    (shapes : List (List (List Pt)))
    (h : overlayCustom k x r rule cw 0 (overlaySegments subj clip) = some shapes) (q : QPt) :
    polysWind shapes.flatten q =
      outerTurn cw * if r.op (rule.inside (polysWind subj q)) (rule.inside (polysWind clip q)) then 1 else 0 :=
  C56_overlay k x ha r rule cw subj clip hf hns hnc hin (wholeCrossings_rectilinear hr) shapes h q

/-! ### examples -/

/-- Two crossing triangles whose edges cross in whole points. -/
def exWhole : List (List Pt) × List (List Pt) :=
  ([[⟨0, 0⟩, ⟨8, 0⟩, ⟨4, 8⟩]], [[⟨0, 4⟩, ⟨4, -4⟩, ⟨8, 4⟩]])

theorem decide_whole {es : List (Pt × Pt)}
    (h : ∀ e ∈ es, ∀ f ∈ es, (area2 e.1 e.2 f.1 ≠ 0 ∨ area2 e.1 e.2 f.2 ≠ 0) →
      area2 e.1 e.2 f.1 * area2 e.1 e.2 f.2 < 0 → area2 f.1 f.2 e.1 * area2 f.1 f.2 e.2 < 0 →
      ((e.1.x * area2 f.1 f.2 e.2 - e.2.x * area2 f.1 f.2 e.1) % (area2 f.1 f.2 e.2 - area2 f.1 f.2 e.1) = 0 ∧
       (e.1.y * area2 f.1 f.2 e.2 - e.2.y * area2 f.1 f.2 e.1) % (area2 f.1 f.2 e.2 - area2 f.1 f.2 e.1) = 0)) :
    WholeCrossings es := by
  intro e he f hf hn q q1 q2
  obtain ⟨t, t0, t1, ht⟩ := q1
  obtain ⟨u, u0, u1, hu⟩ := q2
  have e1 := qarea_param (a := f.1) (b := f.2) ht
  rw [qarea_self hu] at e1
  have f1 := qarea_param (a := e.1) (b := e.2) hu
  rw [qarea_self ht] at f1
  -- the ends of each are on opposite sides of the other
  have opp : ∀ (A B : Int) (s : ℚ), 0 < s → s < 1 → (0 : ℚ) = (1 - s) * A + s * B → (A ≠ 0 ∨ B ≠ 0) → A * B < 0 := by
    intro A B s s0 s1 h hne
    have hs1 : 0 < 1 - s := by linarith
    have hq : (A : ℚ) * B < 0 := by
      rcases lt_trichotomy (A : ℚ) 0 with hA | hA | hA
      · have : 0 < (B : ℚ) := by
          by_contra hc
          have := mul_neg_of_pos_of_neg hs1 hA
          have := mul_nonneg s0.le (neg_nonneg.2 (not_lt.1 hc))
          linarith
        exact mul_neg_of_neg_of_pos hA this
      · exfalso
        rw [hA] at h
        have hB : (B : ℚ) = 0 := by
          have : s * (B : ℚ) = 0 := by linarith
          exact (mul_eq_zero.1 this).resolve_left s0.ne'
        rcases hne with h | h
        · exact h (by exact_mod_cast hA)
        · exact h (by exact_mod_cast hB)
      · have : (B : ℚ) < 0 := by
          by_contra hc
          have := mul_pos hs1 hA
          have := mul_nonneg s0.le (not_lt.1 hc)
          linarith
        exact mul_neg_of_pos_of_neg hA this
    exact_mod_cast hq
  have o1 := opp _ _ u u0 u1 f1 hn
  have hn2 : area2 f.1 f.2 e.1 ≠ 0 ∨ area2 f.1 f.2 e.2 ≠ 0 := by
    by_contra hc
    simp only [not_or, not_not] at hc
    by_cases hff : f.1 = f.2
    · rw [hff] at o1
      nlinarith [mul_self_nonneg (area2 e.1 e.2 f.2)]
    · have := all_line hff hc.1 hc.2
      rcases hn with h | h
      · exact h this.1
      · exact h this.2
  have o2 := opp _ _ t t0 t1 e1 hn2
  obtain ⟨d1, d2⟩ := h e he f hf hn o1 o2
  generalize hA : area2 f.1 f.2 e.1 = A at *
  generalize hB : area2 f.1 f.2 e.2 = B at *
  have hD : B - A ≠ 0 := by
    intro h0
    have : A = B := by omega
    rw [this] at o2
    nlinarith [mul_self_nonneg B]
  have hDq : (B : ℚ) - A ≠ 0 := by
    intro h0
    apply hD
    exact_mod_cast h0
  have ht' : t = -(A : ℚ) / (B - A) := by
    rw [eq_div_iff hDq]
    linarith
  obtain ⟨m, hm⟩ := Int.dvd_of_emod_eq_zero d1
  obtain ⟨n, hn'⟩ := Int.dvd_of_emod_eq_zero d2
  refine ⟨⟨m, n⟩, QPt.ext' ?_ ?_⟩
  · rw [ht.1, ht']
    simp only [Pt.q]
    have : ((e.1.x * B - e.2.x * A : Int) : ℚ) = ((B - A : Int) : ℚ) * m := by rw [hm]; push_cast; ring
    push_cast at this
    field_simp
    linarith
  · rw [ht.2, ht']
    simp only [Pt.q]
    have : ((e.1.y * B - e.2.y * A : Int) : ℚ) = ((B - A : Int) : ℚ) * n := by rw [hn']; push_cast; ring
    push_cast at this
    field_simp
    linarith

/-- The hypotheses hold, with crossings inside edges, and the run succeeds. -/
example : Assumed exConfig exRaw ∧ FragFor exConfig exWhole.1 exWhole.2 ∧
    (∀ c ∈ exWhole.1 ++ exWhole.2, NotClosedExplicitly c) ∧ (∀ c ∈ exWhole.1 ++ exWhole.2, ∀ p ∈ c, InRange p) ∧
    WholeCrossings ((exWhole.1 ++ exWhole.2).flatMap polyEdges) ∧
    overlayCustom exConfig exRaw .difference .nonZero false 0 (overlaySegments exWhole.1 exWhole.2) =
      some [[[⟨1, 2⟩, ⟨0, 0⟩, ⟨2, 0⟩]], [[⟨4, 8⟩, ⟨2, 4⟩, ⟨6, 4⟩]], [[⟨7, 2⟩, ⟨6, 0⟩, ⟨8, 0⟩]]] := by
  refine ⟨exRaw_assumed.1, FragOk.list _ _, by decide, by unfold InRange; decide, ?_, ?_⟩
  · exact decide_whole (by decide +kernel)
  · decide +kernel

/-- A square with a rectilinear notch. -/
example : ∀ c ∈ [[(⟨0, 0⟩ : Pt), ⟨9, 0⟩, ⟨9, 9⟩, ⟨0, 9⟩], [⟨3, 3⟩, ⟨12, 3⟩, ⟨12, 6⟩, ⟨6, 6⟩, ⟨6, 12⟩, ⟨3, 12⟩]], Rectilinear c := by
  decide

end IOverlay
