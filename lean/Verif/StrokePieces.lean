/-
The pieces of strokes in exact arithmetic lie close to the edges of the path.
-/
import Verif.StrokeGeom

namespace IOverlay
open Complex

variable {toInt : ℂ → Pt} {ratio : ℝ}

/-! ### caps -/

theorem rotateBy_polar (t : ℝ) (v : ℂ) : rotateBy t v = exp (t * I) * v := by
  rw [← polar]
  apply Complex.ext <;> simp [rotateBy] <;> ring

theorem capArc_eq (t r : ℝ) (n : Nat) (v : ℂ) : capArc t r n v = (List.range n).map fun i => exp (t * I) ^ (i + 1) * v * r := by
  induction n generalizing v with
  | zero => rfl
  | succ n ih =>
    rw [capArc, ih, List.range_succ_eq_map, List.map_cons, List.map_map]
    congr 1
    · rw [rotateBy_polar]; simp
    · apply List.map_congr_left
      intro i _
      simp only [Function.comp, rotateBy_polar, Nat.succ_eq_add_one]
      ring

theorem le_foldr_max (l : List ℝ) (b : ℝ) : b ≤ l.foldr max b ∧ ∀ x ∈ l, x ≤ l.foldr max b := by
  induction l with
  | nil => simp
  | cons a l ih =>
    refine ⟨ih.1.trans (le_max_right _ _), ?_⟩
    intro x hx
    rcases List.mem_cons.1 hx with rfl | hx
    · exact le_max_left _ _
    · exact (ih.2 x hx).trans (le_max_right _ _)

theorem sqrt_two_ge : (1 : ℝ) ≤ Real.sqrt 2 := by rw [Real.one_le_sqrt]; norm_num

theorem cap_reach_ge (c : LineCap) {r : ℝ} (hr : 0 ≤ r) : r ≤ c.reach r := by
  cases c with
  | butt => exact le_refl _
  | round a => exact le_refl _
  | square =>
    unfold LineCap.reach
    have := sqrt_two_ge
    nlinarith
  | custom ps =>
    unfold LineCap.reach
    have := (le_foldr_max (ps.map fun p => ‖p‖) 1).1
    nlinarith

theorem cap_points (c : LineCap) {r : ℝ} (hr : 0 ≤ r) : ∀ p ∈ (c.normalize.points r).getD [], ‖p‖ ≤ c.reach r := by
  intro p hp
  cases c with
  | butt => simp [LineCap.normalize, LineCap.points] at hp
  | round a =>
    simp only [LineCap.normalize, LineCap.points, Option.getD_some] at hp
    rw [capArc_eq] at hp
    obtain ⟨i, -, rfl⟩ := List.mem_map.1 hp
    unfold LineCap.reach
    rw [norm_mul, norm_mul, norm_pow, Complex.norm_exp_ofReal_mul_I, unit_norm (by simp), Complex.norm_real,
      Real.norm_of_nonneg hr]
    simp
  | square =>
    simp only [LineCap.normalize, LineCap.points, Option.getD_some, List.mem_cons, List.not_mem_nil, or_false] at hp
    unfold LineCap.reach
    have : ‖p‖ ^ 2 = (Real.sqrt 2 * r) ^ 2 := by
      rw [Complex.sq_norm, Complex.normSq_apply, mul_pow, Real.sq_sqrt (by norm_num)]
      rcases hp with rfl | rfl <;> simp <;> ring
    exact le_of_sq_le_sq this.le (by positivity)
  | custom ps =>
    simp only [LineCap.normalize, LineCap.points, Option.getD_some] at hp
    obtain ⟨q, hq, rfl⟩ := List.mem_map.1 hp
    unfold LineCap.reach
    rw [norm_mul, Complex.norm_real, Real.norm_of_nonneg hr, mul_comm]
    exact mul_le_mul_of_nonneg_left ((le_foldr_max _ 1).2 _ (List.mem_map.2 ⟨q, hq, rfl⟩)) hr

theorem startPiece_around {c : LineCap} {r : ℝ} (hr : 0 ≤ r) {s : Section ℂ} (h : Sect r s) :
    Around toInt (c.reach r) s.a ((realOps toInt ratio).startPiece (c.normalize.points r) s) := by
  have hge := cap_reach_ge c hr
  obtain ⟨h1, -, h3, -⟩ := h.side hr
  unfold FloatOps.startPiece
  rw [List.cons_append]
  refine Around.cons (h1.le.trans hge) (Around.append ?_ (Around.cons (h3.le.trans hge) (.nil _ _)))
  intro p hp
  obtain ⟨q, hq, rfl⟩ := List.mem_map.1 hp
  refine ⟨_, ?_, rfl⟩
  rw [rotate_real]
  show ‖(⟨-s.dir.re, -s.dir.im⟩ : ℂ) * q + s.a - s.a‖ ≤ _
  rw [add_sub_cancel_right, norm_mul, unit_norm (by simp; linarith [h.unit]), one_mul]
  exact cap_points c hr q hq

theorem endPiece_around {c : LineCap} {r : ℝ} (hr : 0 ≤ r) {s : Section ℂ} (h : Sect r s) :
    Around toInt (c.reach r) s.b ((realOps toInt ratio).endPiece (c.normalize.points r) s) := by
  have hge := cap_reach_ge c hr
  obtain ⟨-, h2, -, h4⟩ := h.side hr
  unfold FloatOps.endPiece
  rw [List.cons_append]
  refine Around.cons (h4.le.trans hge) (Around.append ?_ (Around.cons (h2.le.trans hge) (.nil _ _)))
  intro p hp
  obtain ⟨q, hq, rfl⟩ := List.mem_map.1 hp
  refine ⟨_, ?_, rfl⟩
  rw [rotate_real]
  show ‖(⟨s.dir.re, s.dir.im⟩ : ℂ) * q + s.b - s.b‖ ≤ _
  rw [add_sub_cancel_right, norm_mul, unit_norm (by simpa using h.unit), one_mul]
  exact cap_points c hr q hq

/-! ### pieces -/

/-- Every vertex comes from a point within `R` of `u` or of `v`. -/
def Encl (toInt : ℂ → Pt) (R : ℝ) (u v : ℂ) (c : List Pt) : Prop :=
  ∀ p ∈ c, ∃ z, (‖z - u‖ ≤ R ∨ ‖z - v‖ ≤ R) ∧ p = toInt z

theorem Around.left {R : ℝ} {u v : ℂ} {c : List Pt} (h : Around toInt R u c) : Encl toInt R u v c := by
  intro p hp
  obtain ⟨z, h1, h2⟩ := h p hp
  exact ⟨z, Or.inl h1, h2⟩

theorem Around.right {R : ℝ} {u v : ℂ} {c : List Pt} (h : Around toInt R v c) : Encl toInt R u v c := by
  intro p hp
  obtain ⟨z, h1, h2⟩ := h p hp
  exact ⟨z, Or.inr h1, h2⟩

theorem join_reach_ge (j : LineJoin) {r : ℝ} (hr : 0 ≤ r) : r ≤ j.reach r := by
  cases j with
  | bevel => exact le_refl _
  | round a => exact le_refl _
  | miter a =>
    simp only [LineJoin.reach]
    obtain ⟨h0, h1, -⟩ := miter_angle a
    have hs : 0 < Real.sin (clampR a (0.01 * Real.pi) (0.99 * Real.pi) / 2) :=
      Real.sin_pos_of_pos_of_lt_pi (by linarith) (by linarith)
    rw [le_div_iff₀ hs]
    have := Real.sin_le_one (clampR a (0.01 * Real.pi) (0.99 * Real.pi) / 2)
    nlinarith

theorem joint_around {j : LineJoin} {r : ℝ} (hr : 0 ≤ r) {s0 s1 : Section ℂ} (h0 : Sect r s0) (h1 : Sect r s1)
    (hc : s1.a = s0.b) {top bot : List Pt} (h : (j.normalize.build r).Extra (realOps toInt ratio) s0 s1 top bot) :
    Around toInt (j.reach r) s0.b ((realOps toInt ratio).joint s0 s1 top bot) := by
  have hge := join_reach_ge j hr
  have hx := extra_around hr h0 h1 hc h
  obtain ⟨-, a2, -, a4⟩ := h0.side hr
  obtain ⟨b1, -, b3, -⟩ := h1.side hr
  rw [hc] at b1 b3
  have ht : Around toInt (j.reach r) s0.b top := fun p hp => hx p (List.mem_append_left _ hp)
  have hb : Around toInt (j.reach r) s0.b bot := fun p hp => hx p (List.mem_append_right _ hp)
  unfold FloatOps.joint
  rw [List.cons_append]
  refine Around.append ?_ (Around.cons (a2.le.trans hge) (.nil _ _))
  refine Around.cons (a4.le.trans hge) (Around.append hb ?_)
  exact Around.cons (b3.le.trans hge) (Around.cons (b1.le.trans hge) ht)

theorem quad_encl {r R : ℝ} (hr : 0 ≤ r) (hR : r ≤ R) {s : Section ℂ} (h : Sect r s) :
    Encl toInt R s.a s.b ((realOps toInt ratio).quad s) := by
  obtain ⟨h1, h2, h3, h4⟩ := h.side hr
  intro p hp
  unfold FloatOps.quad at hp
  simp only [List.mem_cons, List.not_mem_nil, or_false] at hp
  rcases hp with rfl | rfl | rfl | rfl
  · exact ⟨_, Or.inl (h3.le.trans hR), rfl⟩
  · exact ⟨_, Or.inr (h4.le.trans hR), rfl⟩
  · exact ⟨_, Or.inr (h2.le.trans hR), rfl⟩
  · exact ⟨_, Or.inl (h1.le.trans hR), rfl⟩

/-- Consecutive sections share an end. -/
def Chained (l : List (Section ℂ)) : Prop := l.IsChain fun s t => t.a = s.b

theorem pieces_encl {j : LineJoin} {r : ℝ} (hr : 0 ≤ r) {l : List (Section ℂ)} {cs : List (List Pt)}
    (h : Pieces (realOps toInt ratio) (j.normalize.build r) l cs) (hs : ∀ s ∈ l, Sect r s) (hc : Chained l) :
    ∀ c ∈ cs, ∃ s ∈ l, Encl toInt (j.reach r) s.a s.b c := by
  induction h with
  | one s =>
    intro c hc
    rw [List.mem_singleton.1 hc]
    exact ⟨s, by simp, quad_encl hr (join_reach_ge j hr) (hs s (by simp))⟩
  | @cons s0 s1 ss cs top bot h1 h2 h3 ih =>
    intro c hcm
    have hch : s1.a = s0.b ∧ Chained (s1 :: ss) := by
      unfold Chained at hc ⊢
      rw [List.isChain_cons_cons] at hc
      exact hc
    rcases List.mem_cons.1 hcm with rfl | hcm
    · exact ⟨s0, by simp, quad_encl hr (join_reach_ge j hr) (hs s0 (by simp))⟩
    · rcases List.mem_cons.1 hcm with rfl | hcm
      · exact ⟨s0, by simp, (joint_around hr (hs s0 (by simp)) (hs s1 (by simp)) hch.1 h2).right⟩
      · obtain ⟨s, h4, h5⟩ := ih (fun s hs' => hs s (List.mem_cons_of_mem _ hs')) hch.2 c hcm
        exact ⟨s, List.mem_cons_of_mem _ h4, h5⟩

/-! ### the sections of a path -/

theorem sectionsFrom_chained (r : ℝ) : ∀ (l : List ℂ) (p : ℂ), Chained ((realOps toInt ratio).sectionsFrom r p l)
  | [], _ => List.isChain_nil
  | [q], p => List.isChain_singleton _
  | q :: q' :: l, p => by
    have := sectionsFrom_chained r (q' :: l) q
    unfold Chained at this ⊢
    rw [FloatOps.sectionsFrom, FloatOps.sectionsFrom, List.isChain_cons_cons]
    rw [FloatOps.sectionsFrom] at this
    exact ⟨rfl, this⟩

theorem sectionsFrom_mem (r : ℝ) : ∀ (l : List ℂ) (p w : ℂ), toInt w = toInt p →
    ∀ s ∈ (realOps toInt ratio).sectionsFrom r p ((realOps toInt ratio).dedupFrom (toInt p) l),
      Sect r s ∧ (s.a = p ∨ s.a ∈ l) ∧ s.b ∈ l ∧ ∃ w', [w', s.b] <:+: w :: l ∧ toInt w' = toInt s.a
  | [], _, _, _ => by simp [FloatOps.dedupFrom, FloatOps.sectionsFrom]
  | q :: l, p, w, hw => by
    intro s hs
    rw [FloatOps.dedupFrom] at hs
    have hq : (realOps toInt ratio).toInt q = toInt q := rfl
    rw [hq] at hs
    split at hs
    · rename_i e
      obtain ⟨h1, h2, h3, w', h4, h5⟩ := sectionsFrom_mem r l p q e s hs
      exact ⟨h1, h2.imp_right (List.mem_cons_of_mem _), List.mem_cons_of_mem _ h3, w', List.infix_cons h4, h5⟩
    · rename_i e
      rw [FloatOps.sectionsFrom] at hs
      rcases List.mem_cons.1 hs with rfl | hs
      · refine ⟨sect_real r ?_, Or.inl rfl, ?_, w, ?_, hw⟩
        · rintro rfl; exact e rfl
        · show q ∈ q :: l; simp
        · exact ⟨[], l, rfl⟩
      · obtain ⟨h1, h2, h3, w', h4, h5⟩ := sectionsFrom_mem r l q q rfl s hs
        refine ⟨h1, ?_, List.mem_cons_of_mem _ h3, w', List.infix_cons h4, h5⟩
        rcases h2 with h2 | h2
        · exact Or.inr (by rw [h2]; simp)
        · exact Or.inr (List.mem_cons_of_mem _ h2)

theorem sectionsFrom_last (r : ℝ) : ∀ (l : List ℂ) (p w : ℂ), toInt w = toInt p → ∀ s,
    ((realOps toInt ratio).sectionsFrom r p ((realOps toInt ratio).dedupFrom (toInt p) l)).getLast? = some s →
      toInt s.b = toInt ((w :: l).getLast (by simp))
  | [], _, _, _ => by simp [FloatOps.dedupFrom, FloatOps.sectionsFrom]
  | q :: l, p, w, hw => by
    intro s hs
    rw [FloatOps.dedupFrom] at hs
    have hq : (realOps toInt ratio).toInt q = toInt q := rfl
    rw [hq] at hs
    rw [List.getLast_cons (by simp)]
    split at hs
    · rename_i e
      exact sectionsFrom_last r l p q e s hs
    · rw [FloatOps.sectionsFrom] at hs
      rw [List.getLast?_cons] at hs
      cases h : ((realOps toInt ratio).sectionsFrom r q ((realOps toInt ratio).dedupFrom (toInt q) l)).getLast? with
      | some t =>
        rw [h] at hs
        simp only [Option.getD_some, Option.some.injEq] at hs
        subst hs
        exact sectionsFrom_last r l q q rfl t h
      | none =>
        rw [h] at hs
        simp only [Option.getD_none, Option.some.injEq] at hs
        subst hs
        -- nothing kept after `q`: all later points coincide with it on the grid
        have hnil := List.getLast?_eq_none_iff.1 h
        have hall : ∀ (l : List ℂ), (realOps toInt ratio).sectionsFrom r q
            ((realOps toInt ratio).dedupFrom (toInt q) l) = [] → ∀ x ∈ l, toInt x = toInt q := by
          intro l
          induction l with
          | nil => simp
          | cons y l ih =>
            intro h0 x hx
            rw [FloatOps.dedupFrom] at h0
            split at h0
            · rename_i e
              rcases List.mem_cons.1 hx with rfl | hx
              · exact e
              · exact ih h0 x hx
            · simp [FloatOps.sectionsFrom] at h0
        show toInt q = _
        rcases List.mem_cons.1 (List.getLast_mem (l := q :: l) (by simp)) with e | e
        · rw [e]
        · exact (hall l hnil _ e).symm

/-- The closing join of a closed path needs its last point once: no other point of the path falls on the same grid point. -/
def Seam (toInt : ℂ → Pt) (path : List ℂ) : Prop :=
  ∀ z, path.getLast? = some z → ∀ p ∈ path, toInt p = toInt z → p = z

/-- Every vertex of a piece comes from a point within reach of one of the two ends of a section: the end of an edge of the
path, or a point that coincides on the grid with its start. -/
theorem strokePieces_encl {s : StrokeStyle} {closed : Bool} {path : List ℂ} (hseam : closed = true → Seam toInt path)
    {cs : List (List Pt)} (h : StrokePieces (realOps toInt ratio) s.params closed path cs) :
    ∀ c ∈ cs, ∃ u v w, PathEdge closed path w v ∧ toInt w = toInt u ∧ u ∈ path ∧ v ∈ path ∧
      Encl toInt (s.reach closed) u v c := by
  have hr : 0 ≤ s.radius := by
    unfold StrokeStyle.radius
    have := le_max_right s.width 0
    linarith
  have mono : ∀ {R R' : ℝ} {u v : ℂ} {c : List Pt}, Encl toInt R u v c → R ≤ R' → Encl toInt R' u v c := by
    intro R R' u v c h hR p hp
    obtain ⟨z, h1, h2⟩ := h p hp
    exact ⟨z, h1.imp (·.trans hR) (·.trans hR), h2⟩
  unfold StrokePieces at h
  cases closed
  · simp only [Bool.false_eq_true, if_false] at h
    obtain ⟨p0, rest, rfl, -, h⟩ := h
    rcases h with ⟨-, rfl⟩ | ⟨first, last, ds, h1, h2, h3, rfl⟩
    · simp
    have hm := sectionsFrom_mem (toInt := toInt) (ratio := ratio) s.radius rest p0 p0 rfl
    have hsec : ∀ t ∈ (realOps toInt ratio).sectionsFrom s.radius p0 ((realOps toInt ratio).dedupFrom (toInt p0) rest),
        Sect s.radius t ∧ t.a ∈ p0 :: rest ∧ t.b ∈ p0 :: rest ∧ ∃ w, PathEdge false (p0 :: rest) w t.b ∧ toInt w = toInt t.a := by
      intro t ht
      obtain ⟨m1, m2, m3, w, m4, m5⟩ := hm t ht
      refine ⟨m1, ?_, List.mem_cons_of_mem _ m3, w, Or.inl m4, m5⟩
      rcases m2 with m2 | m2
      · rw [m2]; simp
      · exact List.mem_cons_of_mem _ m2
    have hreach : s.join.reach s.radius ≤ s.reach false ∧ s.startCap.reach s.radius ≤ s.reach false ∧
        s.endCap.reach s.radius ≤ s.reach false := by
      unfold StrokeStyle.reach
      simp only [Bool.false_eq_true, if_false]
      exact ⟨le_max_left _ _, (le_max_left _ _).trans (le_max_right _ _), (le_max_right _ _).trans (le_max_right _ _)⟩
    intro c hc
    rw [List.cons_append] at hc
    rcases List.mem_cons.1 hc with rfl | hc
    · obtain ⟨m1, m2, m3, w, m4, m5⟩ := hsec first (List.mem_of_mem_head? h1)
      exact ⟨first.a, first.b, w, m4, m5, m2, m3, mono (startPiece_around hr m1).left hreach.2.1⟩
    rcases List.mem_append.1 hc with hc | hc
    · obtain ⟨t, ht, he⟩ := pieces_encl hr h3 (fun t ht => (hsec t ht).1) (sectionsFrom_chained _ _ _) c hc
      obtain ⟨m1, m2, m3, w, m4, m5⟩ := hsec t ht
      exact ⟨t.a, t.b, w, m4, m5, m2, m3, mono he hreach.1⟩
    · rw [List.mem_singleton.1 hc]
      obtain ⟨m1, m2, m3, w, m4, m5⟩ := hsec last (List.mem_of_mem_getLast? h2)
      exact ⟨last.a, last.b, w, m4, m5, m2, m3, mono (endPiece_around hr m1).right hreach.2.2⟩
  · simp only [if_true] at h
    rcases h with ⟨-, rfl⟩ | ⟨first, last, ds, top, bot, h1, h2, h3, h4, h5, rfl⟩
    · simp
    have hreach : s.join.reach s.radius = s.reach true := by unfold StrokeStyle.reach; simp
    rw [← hreach]
    unfold FloatOps.closedSections at h1 h2 h3
    cases hl : path.getLast? with
    | none => rw [hl] at h1; cases h1
    | some z =>
      rw [hl] at h1 h2 h3
      dsimp only at h1 h2 h3
      have hzm := List.mem_of_mem_getLast? hl
      have hm := sectionsFrom_mem (toInt := toInt) (ratio := ratio) s.radius path z z rfl
      have hsec : ∀ t ∈ (realOps toInt ratio).sectionsFrom s.radius z ((realOps toInt ratio).dedupFrom (toInt z) path),
          Sect s.radius t ∧ t.a ∈ path ∧ t.b ∈ path ∧ ∃ w, PathEdge true path w t.b ∧ toInt w = toInt t.a := by
        intro t ht
        obtain ⟨m1, m2, m3, w, m4, m5⟩ := hm t ht
        refine ⟨m1, ?_, m3, w, ?_, m5⟩
        · rcases m2 with m2 | m2
          · rw [m2]; exact hzm
          · exact m2
        · rcases List.infix_cons_iff.1 m4 with m4 | m4
          · right
            obtain ⟨k, hk⟩ := m4
            simp only [List.cons_append, List.nil_append, List.cons.injEq] at hk
            refine ⟨rfl, by rw [hk.1]; exact hl, ?_⟩
            rw [← hk.2]; rfl
          · exact Or.inl m4
      intro c hc
      rcases List.mem_append.1 hc with hc | hc
      · obtain ⟨t, ht, he⟩ := pieces_encl hr h3 (fun t ht => (hsec t ht).1) (sectionsFrom_chained _ _ _) c hc
        obtain ⟨m1, m2, m3, w, m4, m5⟩ := hsec t ht
        exact ⟨t.a, t.b, w, m4, m5, m2, m3, he⟩
      · rw [List.mem_singleton.1 hc]
        obtain ⟨m1, m2, m3, w, m4, m5⟩ := hsec last (List.mem_of_mem_getLast? h2)
        have hfm := List.mem_of_mem_head? h1
        obtain ⟨f1, -⟩ := hsec first hfm
        have hfa : first.a = z := by
          cases hd : (realOps toInt ratio).dedupFrom (toInt z) path with
          | nil => rw [show (realOps toInt ratio).toInt z = toInt z from rfl, hd] at h1; cases h1
          | cons y ys =>
            rw [show (realOps toInt ratio).toInt z = toInt z from rfl, hd] at h1
            simp only [FloatOps.sectionsFrom, List.head?_cons, Option.some.injEq] at h1
            rw [← h1]; rfl
        have hlb : last.b = z := by
          refine hseam rfl z hl _ m3 ?_
          rw [sectionsFrom_last s.radius path z z rfl last h2]
          congr 1
          cases path with
          | nil => cases hl
          | cons y ys =>
            rw [List.getLast_cons (by simp)]
            rw [List.getLast?_eq_getLast_of_ne_nil (by simp)] at hl
            exact Option.some.inj hl
        exact ⟨last.a, last.b, w, m4, m5, m2, m3, (joint_around hr m1 f1 (by rw [hfa, hlb]) h5).right⟩

end IOverlay
