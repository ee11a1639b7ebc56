/-
The edge first below the leftmost vertex of a hole, and what it says about the shape surrounding the hole.
C26, C43.
-/
import Verif.OrientRun

namespace IOverlay
variable {C K : Type}

/-- `e` is the first edge of `L` strictly below the (non-vertical) edge `s` over the column starting at the
left end of `s`. -/
structure FirstBelow (L : Seg C → Prop) (s e : Seg C) : Prop where
  mem : L e
  spans : e.spans s.a.x
  low : ht e (mid s.a.x) < ht s (mid s.a.x)
  first : ∀ f, L f → f.spans s.a.x → ht f (mid s.a.x) < ht s (mid s.a.x) → f = e ∨ ht f (mid s.a.x) < ht e (mid s.a.x)

section
variable {segs : List (Seg C)} (hp : Planar segs)
include hp

theorem Planar.below_sum {φ : C → Int} (hc : Closed φ segs) {R : Seg C → Prop} (hR : ∀ f ∈ segs, ¬ R f → φ f.c = 0)
    {s e : Seg C} (hs : s ∈ segs) (sx : s.a.x < s.b.x) (h : FirstBelow (fun f => f ∈ segs ∧ R f) s e) :
    botW φ segs s = botW φ segs e + φ e.c := by
  have he := h.mem.1
  rw [hp.botW_eq_lowSum φ hs sx, hp.botW_eq_lowSum φ he h.spans.x, ← hp.lowSum_const hc he _ h.spans,
    ← wsum_single φ hp.nodup he]
  unfold lowSum
  rw [← wsum_add]
  unfold wsum
  congr 1
  refine List.map_congr_left fun f hf => ?_
  beta_reduce
  by_cases hr : R f
  · congr 1
    by_cases sf : f.spans s.a.x
    · by_cases fe : f = e
      · subst fe
        rw [ind_true ⟨sf, h.low⟩, ind_false (fun h => lt_irrefl _ h.2), ind_true rfl]; rfl
      · rw [ind_false fe, add_zero]
        refine ind_congr ⟨fun k => ⟨sf, ?_⟩, fun k => ⟨sf, lt_trans k.2 h.low⟩⟩
        exact (h.first f ⟨hf, hr⟩ sf k.2).resolve_left fe
    · rw [ind_false (fun k => sf k.1), ind_false (fun k => sf k.1), ind_false]
      · rfl
      · rintro rfl; exact sf h.spans
  · rw [hR f hf hr, zero_mul, zero_mul]

theorem Planar.below_exists {φ : C → Int} {R : Seg C → Prop} (hR : ∀ f ∈ segs, ¬ R f → φ f.c = 0)
    {s : Seg C} (hs : s ∈ segs) (sx : s.a.x < s.b.x) (h0 : botW φ segs s ≠ 0) :
    ∃ e, FirstBelow (fun f => f ∈ segs ∧ R f) s e := by
  classical
  generalize hL : (segs.filter fun f => decide (R f ∧ f.spans s.a.x ∧ ht f (mid s.a.x) < ht s (mid s.a.x))) = L
  have hm : ∀ f, f ∈ L ↔ f ∈ segs ∧ R f ∧ f.spans s.a.x ∧ ht f (mid s.a.x) < ht s (mid s.a.x) := by
    intro f; rw [← hL, List.mem_filter, decide_eq_true_eq]
  by_cases hn : L = []
  · exfalso
    apply h0
    rw [hp.botW_eq_lowSum φ hs sx]
    unfold lowSum wsum
    refine List.sum_eq_zero ?_
    intro z hz
    obtain ⟨f, hf, rfl⟩ := List.mem_map.1 hz
    beta_reduce
    by_cases hr : R f
    · rw [ind_false, mul_zero]
      rintro ⟨k1, k2⟩
      have := (hm f).2 ⟨hf, hr, k1, k2⟩
      rw [hn] at this
      simp at this
    · rw [hR f hf hr, zero_mul]
  · obtain ⟨e, he, hmax⟩ := exists_max L hn fun f => ht f (mid s.a.x)
    obtain ⟨e1, e2, e3, e4⟩ := (hm e).1 he
    refine ⟨e, ⟨e1, e2⟩, e3, e4, ?_⟩
    rintro f ⟨f1, f2⟩ f3 f4
    by_cases hfe : f = e
    · exact Or.inl hfe
    · right
      exact lt_of_le_of_ne (hmax f ((hm f).2 ⟨f1, f2, f3, f4⟩)) (hp.mid_ne f1 e1 hfe f3 e3)

/-- The left end of an edge below `s` is not after that of `s`. -/
theorem Planar.below_left {s e : Seg C} (hs : s ∈ segs) (he : e ∈ segs) (sx : s.a.x < s.b.x) (se : e.spans s.a.x)
    (hl : ht e (mid s.a.x) < ht s (mid s.a.x)) :
    e.a < s.a ∨ (e.a = s.a ∧ 0 < area2 s.a s.b e.b) := by
  rcases (hp.low_iff he hs sx se).1 hl with h | h
  · left
    rw [Pt.lt_def]
    by_cases hx : e.a.x < s.a.x
    · exact Or.inl hx
    · have hx' : e.a.x = s.a.x := by have := se.1; omega
      rw [← hx', ht_a] at h
      exact Or.inr ⟨hx', by exact_mod_cast h⟩
  · exact Or.inr h

end

/-! ### values of the contours' winding numbers next to a contour -/

/-- Winding number on the side of an edge of the result where the result lies. -/
noncomputable def fillSide (clockwise : Bool) (φ : C → Int) (segs : List (Seg C)) (d : Dart C) : Int :=
  botW φ segs d.s + if d.fwd = !clockwise then φ d.s.c else 0

/-- The winding number of the contour. -/
noncomputable def Found.flow (f : Found) : Pt × Pt → Int := onKeys (trav f.darts)

/-- Winding number of `X` next to `Y`, on the side of the result. -/
noncomputable def depth (clockwise : Bool) (E : List Edge) (X Y : Found) : Int :=
  fillSide clockwise X.flow E ⟨Y.top, !(Y.hole == clockwise)⟩

theorem fillSide_eq (hole clockwise : Bool) (φ : C → Int) (segs : List (Seg C)) (d : Dart C) :
    fillSide clockwise φ segs d =
      if hole then far (hole == clockwise) φ segs d else hug (hole == clockwise) φ segs d := by
  unfold fillSide hug far
  cases hole <;> cases clockwise <;> cases d.fwd <;> simp

theorem mem_cases {α : Type} {l : List α} {x y : α} (hx : x ∈ l) (hy : y ∈ l) :
    x = y ∨ (∃ l1 l2 l3, l = l1 ++ x :: l2 ++ y :: l3) ∨ (∃ l1 l2 l3, l = l1 ++ y :: l2 ++ x :: l3) := by
  obtain ⟨l1, l2, rfl⟩ := List.append_of_mem hx
  rcases List.mem_append.1 hy with h | h
  · obtain ⟨a, b, rfl⟩ := List.append_of_mem h
    exact Or.inr (Or.inr ⟨a, b, l2, by simp⟩)
  · rcases List.mem_cons.1 h with h | h
    · exact Or.inl h.symm
    · obtain ⟨a, b, rfl⟩ := List.append_of_mem h
      exact Or.inr (Or.inl ⟨l1, a, b, by simp⟩)

section
variable {E : List Edge} (hp : Planar E) (hk : Keyed E) {R : Edge → Prop} {clockwise : Bool}
include hp

theorem Tours.top_mem {fs : List Found} (h : Tours clockwise E R fs) {f : Found} (hf : f ∈ fs) :
    (⟨f.top, !(f.hole == clockwise)⟩ : Dart (Pt × Pt)) ∈ f.darts := by
  obtain ⟨l1, l2, rfl⟩ := List.append_of_mem hf
  obtain ⟨U, h1, -, -⟩ := h.split hp (R := R) quiet_start
  exact h1.head_mem

/-- Edges of two contours, the first found earlier. -/
theorem Tours.earlier {l1 l2 l3 : List Found} {f f' : Found} (h : Tours clockwise E R (l1 ++ f :: l2 ++ f' :: l3)) :
    ∃ U U', TopTour (f.hole == clockwise) E U f.top f.darts ∧ TopTour (f'.hole == clockwise) E U' f'.top f'.darts ∧
      Quiet E R U ∧ Quiet E R U' ∧ (∀ s, U' s → U s) ∧ (∀ s, U s → R s) ∧
      ∀ s, s ∈ f.darts.map (·.s) → R s ∧ ¬ U' s := by
  obtain ⟨U', t1, t2, t3⟩ := h.split hp (R := R) quiet_start
  have h' : Tours clockwise E R (l1 ++ f :: (l2 ++ f' :: l3)) := by simpa using h
  obtain ⟨U, u1, u2, u3⟩ := h'.split hp (R := R) quiet_start
  obtain ⟨q2, hu⟩ := u1.tour
  refine ⟨U, U', u1, t1, u2, t2, ?_, fun s hs => ((u3 s).1 hs).1, ?_⟩
  · intro s hs
    obtain ⟨a, b⟩ := (t3 s).1 hs
    refine (u3 s).2 ⟨a, fun hc => b ?_⟩
    rw [List.flatMap_append]
    exact List.mem_append_left _ hc
  · intro s hs
    constructor
    · obtain ⟨d, hd, rfl⟩ := List.mem_map.1 hs
      exact ((u3 _).1 (hu.mem d hd).2).1
    · intro hU
      refine ((t3 s).1 hU).2 ?_
      rw [List.flatMap_append]
      exact List.mem_append_right _ (by rw [List.flatMap_cons]; exact List.mem_append_left _ hs)

include hk

/-- The value of an earlier contour along a later one, on either side. -/
theorem Tours.earlier_value {l1 l2 l3 : List Found} {f f' : Found}
    (h : Tours clockwise E R (l1 ++ f :: l2 ++ f' :: l3)) :
    ∀ d ∈ f'.darts, f.flow d.s.c = 0 ∧ botW f.flow E d.s = botW f.flow E f'.top := by
  obtain ⟨U, U', u1, t1, -, t2, -, -, hfs⟩ := h.earlier hp
  obtain ⟨q1, ht⟩ := t1.tour
  obtain ⟨q2, hu⟩ := u1.tour
  intro d hd
  have hs := (ht.mem d hd).1
  have hz : f.flow d.s.c = 0 := by
    unfold Found.flow
    rw [onKeys_eq hk _ hs]
    exact trav_zero fun hm => (hfs _ hm).2 (ht.mem d hd).2
  refine ⟨hz, ?_⟩
  have hin := t1.inner_const hp hk t2 (fun _ : Unit => f.flow) (fun _ => hu.trav_closed hp hk) (fun v => v ())
    (by
      intro s hs hR
      have : s ∉ f.darts.map (·.s) := fun hm => hR (hfs s hm).1
      simp only [Pi.add_apply, cvec, Found.flow]
      rw [onKeys_eq hk _ hs, trav_zero this]; ring) d hd
  simp only [hugV, hug, bvec, hz, ite_self, add_zero] at hin
  exact hin

/-- The value of a later contour along an earlier one. -/
theorem Tours.later_value {l1 l2 l3 : List Found} {f f' : Found}
    (h : Tours clockwise E R (l1 ++ f :: l2 ++ f' :: l3)) :
    ∀ d ∈ f.darts, f'.flow d.s.c = 0 ∧ botW f'.flow E d.s = 0 := by
  obtain ⟨U, U', u1, t1, -, t2, -, -, hfs⟩ := h.earlier hp
  obtain ⟨q1, ht⟩ := t1.tour
  obtain ⟨q2, hu⟩ := u1.tour
  intro d hd
  have hs := (hu.mem d hd).1
  have hm : d.s ∈ f.darts.map (·.s) := List.mem_map_of_mem hd
  refine ⟨?_, t2 _ (ht.trav_closed hp hk) (ht.trav_supp hk) _ hs (hfs _ hm).1 (hfs _ hm).2⟩
  exact ht.trav_supp hk _ hs (hfs _ hm).2

/-- A contour next to itself. -/
theorem Tours.own_value {fs : List Found} (h : Tours clockwise E R fs) {f : Found} (hf : f ∈ fs) :
    ∀ d ∈ f.darts, fillSide clockwise f.flow E d = if f.hole then 0 else outerTurn clockwise := by
  obtain ⟨l1, l2, rfl⟩ := List.append_of_mem hf
  obtain ⟨U, h1, -, -⟩ := h.split hp (R := R) quiet_start
  intro d hd
  obtain ⟨k1, k2⟩ := h1.hug_trav hp hk d hd
  rw [fillSide_eq f.hole]
  unfold Found.flow
  rw [k1, k2]
  unfold side outerTurn
  cases f.hole <;> cases clockwise <;> rfl

/-- The winding number of any contour is constant along the result side of any contour. -/
theorem Tours.fill_const {fs : List Found} (h : Tours clockwise E R fs) {X Y : Found} (hX : X ∈ fs) (hY : Y ∈ fs) :
    ∀ d ∈ Y.darts, fillSide clockwise X.flow E d = depth clockwise E X Y := by
  intro d hd
  have ht := h.top_mem hp hY
  rcases mem_cases hX hY with rfl | ⟨l1, l2, l3, e⟩ | ⟨l1, l2, l3, e⟩
  · unfold depth
    rw [h.own_value hp hk hX d hd, h.own_value hp hk hX _ ht]
  · rw [e] at h
    obtain ⟨a1, a2⟩ := h.earlier_value hp hk d hd
    obtain ⟨b1, b2⟩ := h.earlier_value hp hk _ ht
    unfold depth fillSide
    simp only at b1 ⊢
    rw [a1, a2, b1]; simp
  · rw [e] at h
    obtain ⟨a1, a2⟩ := h.later_value hp hk d hd
    obtain ⟨b1, b2⟩ := h.later_value hp hk _ ht
    unfold depth fillSide
    simp only at b1 b2 ⊢
    rw [a1, a2, b1, b2]; simp

/-- Product of the winding numbers of two contours. -/
theorem Tours.product {l1 l2 l3 : List Found} {f f' : Found} (h : Tours clockwise E R (l1 ++ f :: l2 ++ f' :: l3))
    (q : QPt) : segsWind f.flow E q * segsWind f'.flow E q = depth clockwise E f f' * segsWind f'.flow E q := by
  have hf' : f' ∈ l1 ++ f :: l2 ++ f' :: l3 := by simp
  have hlater := h.later_value hp hk
  have hearl := h.earlier_value hp hk
  have htop := h.top_mem hp hf'
  obtain ⟨U, U', u1, t1, -, t2, -, -, hfs⟩ := h.earlier hp
  obtain ⟨q1, ht⟩ := t1.tour
  obtain ⟨q2, hu⟩ := u1.tour
  have hcΨ : ∀ b : Bool, Closed ((fun b : Bool => if b then f.flow else f'.flow) b) E := by
    intro b; cases b
    · exact ht.trav_closed hp hk
    · exact hu.trav_closed hp hk
  generalize hΨ : (fun b : Bool => if b then f.flow else f'.flow) = Ψ at hcΨ
  have hΨt : Ψ true = f.flow := by rw [← hΨ]; rfl
  have hΨf : Ψ false = f'.flow := by rw [← hΨ]; rfl
  have hdep : depth clockwise E f f' = botW f.flow E f'.top := by
    unfold depth fillSide
    have := (hearl _ htop).1
    simp only at this ⊢
    rw [this]; simp
  have hq := jumps_wind Ψ (fun v => v true * v false) hp hcΨ q
  simp only [hΨt, hΨf, Pi.zero_apply, mul_zero, sub_zero] at hq
  rw [hdep, ← hq, ← onKeys_flow hk]
  unfold segsWind
  rw [← List.sum_map_mul_left]
  congr 1
  refine List.map_congr_left fun s hs => ?_
  rw [← mul_assoc]
  congr 1
  rw [onKeys_eq hk _ hs]
  simp only [jump, bvec, cvec, hΨt, hΨf, Pi.add_apply]
  by_cases hm : s ∈ f'.darts.map (·.s)
  · obtain ⟨d, hd, rfl⟩ := List.mem_map.1 hm
    obtain ⟨a1, a2⟩ := hearl d hd
    rw [a1, a2]; ring
  · have hz : f'.flow s.c = 0 := by unfold Found.flow; rw [onKeys_eq hk _ hs]; exact trav_zero hm
    rw [hz]
    by_cases hm' : s ∈ f.darts.map (·.s)
    · obtain ⟨d, hd, rfl⟩ := List.mem_map.1 hm'
      rw [(hlater d hd).2]; ring
    · have hz' : f.flow s.c = 0 := by unfold Found.flow; rw [onKeys_eq hk _ hs]; exact trav_zero hm'
      rw [hz']; ring

/-- A hole whose result side is that of an outer contour lies in that contour. -/
theorem Tours.hole_inside {fs : List Found} (h : Tours clockwise E R fs) {H O : Found} (hH : H ∈ fs) (hO : O ∈ fs)
    (h1 : H.hole = true) (h2 : O.hole = false)
    (he : ∀ X ∈ fs, depth clockwise E X H = depth clockwise E X O) (q : QPt) (hq : segsWind H.flow E q ≠ 0) :
    segsWind O.flow E q = outerTurn clockwise := by
  have hOO : depth clockwise E O O = outerTurn clockwise := by
    have := h.own_value hp hk hO _ (h.top_mem hp hO)
    unfold depth
    rw [this, h2]; rfl
  have hOH : depth clockwise E O H = outerTurn clockwise := by rw [he O hO, hOO]
  rcases mem_cases hO hH with rfl | ⟨l1, l2, l3, e⟩ | ⟨l1, l2, l3, e⟩
  · rw [h1] at h2; simp at h2
  · rw [e] at h
    have := h.product hp hk q
    rw [hOH] at this
    exact mul_right_cancel₀ hq this
  · exfalso
    have htm := h.top_mem hp hH
    rw [e] at h
    obtain ⟨a, b⟩ := h.later_value hp hk _ htm
    unfold depth fillSide at hOH
    simp only at a b hOH
    rw [a, b] at hOH
    revert hOH
    unfold outerTurn
    cases clockwise <;> simp

/-- Two holes with the same result side are disjoint. -/
theorem Tours.holes_disjoint {fs : List Found} (h : Tours clockwise E R fs) {H H' : Found} (hH : H ∈ fs) (hH' : H' ∈ fs)
    (h1 : H.hole = true) (h2 : H'.hole = true) (hne : H ≠ H')
    (he : ∀ X ∈ fs, depth clockwise E X H = depth clockwise E X H') (q : QPt) :
    segsWind H.flow E q = 0 ∨ segsWind H'.flow E q = 0 := by
  have own : ∀ {Z : Found}, Z ∈ fs → Z.hole = true → depth clockwise E Z Z = 0 := by
    intro Z hZ hh
    have := h.own_value hp hk hZ _ (h.top_mem hp hZ)
    unfold depth
    rw [this, hh]; rfl
  rcases mem_cases hH hH' with rfl | ⟨l1, l2, l3, e⟩ | ⟨l1, l2, l3, e⟩
  · exact absurd rfl hne
  · have o := own hH h1
    rw [he H hH] at o
    rw [e] at h
    have := h.product hp hk q
    rw [o, zero_mul] at this
    exact mul_eq_zero.1 this
  · have o := own hH' h2
    rw [← he H' hH'] at o
    rw [e] at h
    have := h.product hp hk q
    rw [o, zero_mul] at this
    exact (mul_eq_zero.1 this).symm

end

/-! ### the anchor of a hole -/

/-- The edge of a hole contour used to look for the shape around it (core/extract.rs:92-102): the second one
of a clockwise walk, the last one of a counterclockwise walk. -/
def anchorOf (clockwise : Bool) (D : List (Dart (Pt × Pt))) : Option (Dart (Pt × Pt)) :=
  if clockwise then D[1]? else D.getLast?

theorem pred_of_mem {α : Type} {D : List α} {x d : α} (hh : D.head? = some x) (hd : d ∈ D) (hne : d ≠ x) :
    ∃ pre e post, D = pre ++ e :: d :: post := by
  obtain ⟨pre, post, rfl⟩ := List.append_of_mem hd
  rcases List.eq_nil_or_concat pre with rfl | ⟨l, e, rfl⟩
  · simp at hh; exact absurd hh hne
  · exact ⟨l, e, post, by simp⟩

theorem succ_of_mem {α : Type} {D : List α} {x d : α} (hh : D.getLast? = some x) (hd : d ∈ D) (hne : d ≠ x) :
    ∃ pre e post, D = pre ++ d :: e :: post := by
  obtain ⟨pre, post, rfl⟩ := List.append_of_mem hd
  rcases post with _ | ⟨e, post⟩
  · simp at hh; exact absurd hh hne
  · exact ⟨pre, e, post, rfl⟩

section
variable {E : List Edge} (hp : Planar E) {cw : Bool} {U : Edge → Prop} {T : Edge} {D : List (Dart (Pt × Pt))}
  (hT : TopTour cw E U T D)
include hp hT

theorem TopTour.left_end {d : Dart (Pt × Pt)} (hd : d ∈ D) (h : d.s.at T.a) : d.s.a = T.a := by
  obtain ⟨q, ht⟩ := hT.tour
  obtain ⟨h1, h2⟩ := ht.mem d hd
  rcases h with h | h
  · exact h
  · exact absurd (by rw [← h]; exact hp.lt _ h1) (hT.min _ h1 h2)

theorem TopTour.anchor : ∃ d ∈ D, anchorOf cw D = some d ∧ d.fwd = cw ∧ d.s.a = T.a ∧ d.s ≠ T ∧ T.a.x < d.s.b.x ∧
    0 < area2 T.a T.b d.s.b := by
  obtain ⟨q, ht⟩ := hT.tour
  obtain ⟨T1, T2⟩ := ht.mem _ hT.head_mem
  have hTl := hp.lt T T1
  have hTl : T.a < T.b := hTl
  -- enough: an edge of the contour at the leftmost vertex other than the first
  have key : ∀ d ∈ D, anchorOf cw D = some d → d.s.at T.a → d.s ≠ T → d.fwd = cw →
      ∃ d ∈ D, anchorOf cw D = some d ∧ d.fwd = cw ∧ d.s.a = T.a ∧ d.s ≠ T ∧ T.a.x < d.s.b.x ∧
        0 < area2 T.a T.b d.s.b := by
    intro d hd h1 h2 h3 h4
    have ha := hT.left_end hp hd h2
    obtain ⟨m1, m2⟩ := ht.mem d hd
    have hf := hT.top _ m1 m2 ha h3
    exact ⟨d, hd, h1, h4, ha, h3, (fanLt_spans ha (hp.lt _ m1) hTl hf).2, hf⟩
  have hhead := hT.head
  rcases D with _ | ⟨x, D⟩
  · simp at hhead
  · simp only [List.head?_cons, Option.some.injEq] at hhead
    subst hhead
    have hfirst := ht.first _ rfl
    have hnd := ht.nodup
    rcases D with _ | ⟨y, D⟩
    · have := ht.last _ rfl
      rw [← hfirst] at this
      exfalso
      unfold Dart.start Dart.finish at this
      cases cw <;> simp at this <;> rw [this] at hTl <;> exact Pt.lt_irrefl _ hTl
    · cases cw
      · -- the last edge
        have hl : (⟨T, true⟩ :: y :: D : List (Dart (Pt × Pt))).getLast? =
            some ((y :: D).getLast (by simp)) := by
          rw [List.getLast?_cons_cons, List.getLast?_eq_some_getLast (by simp)]
        have hmem : (y :: D).getLast (by simp) ∈ y :: D := List.getLast_mem _
        generalize hz : (y :: D).getLast (by simp) = z at hl hmem
        have hfin := ht.last z hl
        rw [← hfirst] at hfin
        have hfin : z.finish = T.a := hfin
        have hzT : z.s ≠ T := by
          intro h
          rw [List.map_cons, List.nodup_cons] at hnd
          apply hnd.1
          have := List.mem_map_of_mem (f := fun d : Dart (Pt × Pt) => d.s) hmem
          simp only [h] at this
          exact this
        have hat := z.at_finish
        rw [hfin] at hat
        have ha := hT.left_end hp (List.mem_cons_of_mem _ hmem) hat
        refine key z (List.mem_cons_of_mem _ hmem) hl hat hzT ?_
        cases hzf : z.fwd
        · rfl
        · exfalso
          have hb := hp.lt _ (ht.mem z (List.mem_cons_of_mem _ hmem)).1
          unfold Dart.finish at hfin
          rw [hzf] at hfin
          simp only [if_true] at hfin
          rw [ha, hfin] at hb
          exact Pt.lt_irrefl _ hb
      · -- the second edge
        have hn := (ht.next [] ⟨T, false⟩ y D rfl).1
        have hst : y.start = T.a := hn.symm
        have hyT : y.s ≠ T := by
          intro h
          rw [List.map_cons, List.nodup_cons] at hnd
          exact hnd.1 (by rw [← h]; simp)
        have hat := y.at_start
        rw [hst] at hat
        have ha := hT.left_end hp (d := y) (by simp) hat
        refine key y (by simp) rfl hat hyT ?_
        cases hyf : y.fwd
        · exfalso
          have hb := hp.lt _ (ht.mem y (by simp)).1
          unfold Dart.start at hst
          rw [hyf] at hst
          simp only [Bool.false_eq_true, if_false] at hst
          rw [ha, hst] at hb
          exact Pt.lt_irrefl _ hb
        · rfl

omit hp in
/-- A counterclockwise walk comes back to its leftmost vertex only at the end. -/
theorem TopTour.once (hcw : cw = false) {d : Dart (Pt × Pt)} (hd : d ∈ D) (ha : d.s.a = T.a) (hf : d.fwd = true) : d.s = T := by
  subst hcw
  obtain ⟨q, ht⟩ := hT.tour
  have hq := ht.first _ hT.head
  have hq : T.a = q := hq
  by_contra hne
  obtain ⟨pre, e, post, hD⟩ := pred_of_mem hT.head hd (by rintro rfl; exact hne rfl)
  obtain ⟨h1, h2⟩ := ht.next pre e d post hD
  apply h2
  rw [h1, ← hq, ← ha]
  unfold Dart.start
  rw [hf]; simp

end

/-- Order of the anchors: by left ends, then from the lower to the upper one. -/
def Before (t s : Seg C) : Prop := t.a < s.a ∨ (t.a = s.a ∧ 0 < area2 s.a s.b t.b)

section
variable {E : List Edge} (hp : Planar E) (hk : Keyed E) {R : Edge → Prop} {clockwise : Bool}
include hp hk

/-- Below the anchor of a hole the first edge of the result belongs to a contour with the same surroundings. -/
theorem Tours.surround {fs : List Found} (h : Tours clockwise E R fs) (Φ : K → Pt × Pt → Int)
    (hc : ∀ k, Closed (Φ k) E) (F : (K → Int) → Int) (hF01 : ∀ v, F v = 0 ∨ F v = 1) (hF0 : F 0 = 0)
    (hF : ∀ s ∈ E, (F (bvec Φ E s + cvec Φ s) ≠ F (bvec Φ E s) ↔ R s))
    (hhole : ∀ f ∈ fs, F (bvec Φ E f.top + cvec Φ f.top) = if f.hole then 1 else 0)
    (hall : ∀ s, s ∈ E → R s → s ∈ fs.flatMap fun f => f.darts.map (·.s))
    (honce : ∀ f ∈ fs, f.hole = true → ∀ d ∈ f.darts, d.s.a = f.top.a → d.fwd = !clockwise → d.s = f.top)
    {H : Found} (hH : H ∈ fs) (hh : H.hole = true) :
    ∃ s ∈ H.darts, anchorOf clockwise H.darts = some s ∧ s.s.a = H.top.a ∧ s.s.a.x < s.s.b.x ∧ s.fwd = clockwise ∧
      ∃ Y ∈ fs, ∃ d ∈ Y.darts, d.fwd = !clockwise ∧ FirstBelow (fun f => f ∈ E ∧ R f) s.s d.s ∧
        (∀ X ∈ fs, depth clockwise E X H = depth clockwise E X Y) ∧
        (Y.hole = true → ∀ t ∈ anchorOf clockwise Y.darts, Before t.s s.s) := by
  obtain ⟨hnd, hmem⟩ := h.nodup
  have hmE : ∀ f ∈ fs, ∀ d ∈ f.darts, d.s ∈ E ∧ R d.s := fun f hf d hd =>
    hmem _ (List.mem_flatMap.2 ⟨f, hf, List.mem_map_of_mem hd⟩)
  have hsides := h.sides hp hk Φ hc F (fun s hs hR => by
    by_contra hn
    exact hR ((hF s hs).1 hn))
  -- the value on the result side is one
  have hfill : ∀ f ∈ fs, ∀ d ∈ f.darts,
      F (fun k => fillSide clockwise (Φ k) E d) = 1 := by
    intro f hf d hd
    have h1 := hsides f hf d hd
    have h3 := (hF d.s (hmE f hf d hd).1).2 (hmE f hf d hd).2
    have htm := hmE f hf _ (h.top_mem hp hf)
    have h4 := (hF f.top htm.1).2 htm.2
    rw [hhole f hf] at h4
    have h2 := hug_jump hp Φ F (f.hole == clockwise) d
    have hne : F (hugV (f.hole == clockwise) Φ E d) ≠ F (farV (f.hole == clockwise) Φ E d) := by
      intro he
      rw [he, sub_self, mul_zero] at h2
      apply h3
      have : d.sign ≠ 0 := by unfold Dart.sign; cases d.fwd <;> decide
      have := (mul_eq_zero.1 h2).resolve_left this
      omega
    have e : (fun k => fillSide clockwise (Φ k) E d) =
        if f.hole then farV (f.hole == clockwise) Φ E d else hugV (f.hole == clockwise) Φ E d := by
      funext k
      rw [fillSide_eq f.hole]
      cases f.hole <;> rfl
    rw [e]
    have hb := hF01 (bvec Φ E f.top)
    have hb' := hF01 (farV (f.hole == clockwise) Φ E d)
    rw [h1] at hne
    rw [← h1] at hb hne h4
    cases hfh : f.hole
    · rw [hfh] at h4 hb
      simp only [Bool.false_eq_true, if_false] at h4 ⊢
      omega
    · rw [hfh] at h4 hne hb hb'
      simp only [if_true] at h4 ⊢
      omega
  have htour : ∀ f ∈ fs, f.hole = true → ∃ U, TopTour clockwise E U f.top f.darts := by
    intro f hf hfh
    obtain ⟨l1, l2, e⟩ := List.append_of_mem hf
    rw [e] at h
    obtain ⟨U, h1, -, -⟩ := h.split hp (R := R) quiet_start
    rw [hfh] at h1
    exact ⟨U, by simpa using h1⟩
  obtain ⟨U, hTH⟩ := htour H hH hh
  obtain ⟨s, hs, s1, s2, s3, s4, s5, -⟩ := hTH.anchor hp
  have sx : s.s.a.x < s.s.b.x := by rw [s3]; exact s5
  have hsE := (hmE H hH s hs).1
  refine ⟨s, hs, s1, s3, sx, s2, ?_⟩
  have below : ∀ (φ : Pt × Pt → Int) (d : Dart (Pt × Pt)), d.fwd = clockwise → fillSide clockwise φ E d = botW φ E d.s := by
    intro φ d hd
    unfold fillSide
    rw [hd]; cases clockwise <;> simp
  have above : ∀ (φ : Pt × Pt → Int) (d : Dart (Pt × Pt)), d.fwd = (!clockwise) →
      fillSide clockwise φ E d = botW φ E d.s + φ d.s.c := by
    intro φ d hd
    unfold fillSide
    rw [hd, if_pos rfl]
  have hFs : F (bvec Φ E s.s) = 1 := by
    rw [← hfill H hH s hs]
    congr 1
    funext k
    rw [below _ _ s2]; rfl
  have hJc := onKeys_closed hp hk hc F
  have hJs : ∀ f ∈ E, ¬ R f → onKeys (jump Φ F E) f.c = 0 := by
    intro f hf hR
    rw [onKeys_eq hk _ hf]
    unfold jump
    by_contra hn
    exact hR ((hF f hf).1 (by intro h; rw [h] at hn; exact hn (sub_self _)))
  have hJ1 : botW (onKeys (jump Φ F E)) E s.s = 1 := by
    rw [onKeys_bot hp hk hc F hsE, hFs, hF0]; rfl
  obtain ⟨e, he⟩ := hp.below_exists hJs hsE sx (by rw [hJ1]; decide)
  have heE := he.mem.1
  have heR := he.mem.2
  have hab : F (bvec Φ E e + cvec Φ e) = 1 := by
    have := hp.below_sum hJc hJs hsE sx he
    rw [hJ1, onKeys_bot hp hk hc F heE, onKeys_eq hk _ heE, hF0] at this
    unfold jump at this
    omega
  have hbe := (hF e heE).2 heR
  obtain ⟨Y, hY, hm⟩ := List.mem_flatMap.1 (hall e heE heR)
  obtain ⟨d, hd, rfl⟩ := List.mem_map.1 hm
  have hdf : d.fwd = !clockwise := by
    by_contra hn
    have hn : d.fwd = clockwise := by
      revert hn; cases d.fwd <;> cases clockwise <;> simp
    have := hfill Y hY d hd
    rw [show (fun k => fillSide clockwise (Φ k) E d) = bvec Φ E d.s from by
      funext k; rw [below _ _ hn]; rfl] at this
    omega
  refine ⟨Y, hY, d, hd, hdf, he, ?_, ?_⟩
  · intro X hX
    rw [← h.fill_const hp hk hX hH s hs, ← h.fill_const hp hk hX hY d hd, below _ _ s2, above _ _ hdf]
    obtain ⟨l1, l2, e1⟩ := List.append_of_mem hX
    rw [e1] at h
    obtain ⟨U', u1, -, -⟩ := h.split hp (R := R) quiet_start
    obtain ⟨q, u⟩ := u1.tour
    refine hp.below_sum (u.trav_closed hp hk) (R := R) ?_ hsE sx he
    intro f hf hR
    rw [onKeys_eq hk _ hf]
    refine trav_zero fun hm => hR ?_
    obtain ⟨d', hd', rfl⟩ := List.mem_map.1 hm
    exact (hmE X hX d' hd').2
  · intro hYh t ht
    obtain ⟨U', hTY⟩ := htour Y hY hYh
    obtain ⟨t', t1, t2, t3, t4, t5, t6, t7⟩ := hTY.anchor hp
    rw [t2] at ht
    obtain rfl := Option.some.inj ht
    obtain ⟨q, hq⟩ := hTY.tour
    have hmin := hTY.min _ (hq.mem d hd).1 (hq.mem d hd).2
    unfold Before
    rw [t4]
    have hle : Y.top.a < d.s.a ∨ Y.top.a = d.s.a := by
      rcases Pt.lt_tri Y.top.a d.s.a with k | k | k
      · exact Or.inl k
      · exact Or.inr k
      · exact absurd k hmin
    rcases hp.below_left hsE heE sx he.spans he.low with k | ⟨k1, k2⟩
    · left
      rcases hle with h | h
      · exact Pt.lt_trans h k
      · rw [h]; exact k
    · rcases hle with h | h
      · left; rw [← k1]; exact h
      · right
        refine ⟨h.trans k1, ?_⟩
        have hdt := honce Y hY hYh d hd h.symm hdf
        have l1 := hp.lt _ (hmE Y hY t' t1).1
        have l2 := hp.lt _ heE
        have l3 := hp.lt _ hsE
        rw [t4, h, k1] at l1
        rw [k1] at l2
        rw [← hdt] at t7
        rw [k1] at t7
        exact fan_trans l1 l2 l3 t7 k2

end

end IOverlay
