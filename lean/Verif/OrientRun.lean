/-
Orientation and nesting of the contours of an extraction. C41, C42.
-/
import Verif.Tours

namespace IOverlay
variable {K : Type}

/-! ### successive walks -/

section
variable {E : List Edge} (hp : Planar E) (hk : Keyed E) {R : Edge → Prop} {clockwise : Bool}
include hp

theorem Tours.split {U : Edge → Prop} {l1 : List Found} {f : Found} {l2 : List Found}
    (h : Tours clockwise E U (l1 ++ f :: l2)) (hQ : Quiet E R U) :
    ∃ U', TopTour (f.hole == clockwise) E U' f.top f.darts ∧ Quiet E R U' ∧
      ∀ s, U' s ↔ U s ∧ s ∉ l1.flatMap fun f => f.darts.map (·.s) := by
  induction l1 generalizing U with
  | nil =>
    cases h with
    | cons h1 h2 => exact ⟨U, h1, hQ, by simp⟩
  | cons x l1 ih =>
    cases h with
    | cons h1 h2 =>
      obtain ⟨U', a, b, c⟩ := ih h2 (h1.quiet hp hQ)
      refine ⟨U', a, b, fun s => ?_⟩
      rw [c s, List.flatMap_cons, List.mem_append]
      push Not
      constructor
      · rintro ⟨⟨h1, h2⟩, h3⟩; exact ⟨h1, h2, h3⟩
      · rintro ⟨h1, h2, h3⟩; exact ⟨⟨h1, h2⟩, h3⟩

omit hp in
theorem Tours.nodup {U : Edge → Prop} {fs : List Found} (h : Tours clockwise E U fs) :
    (fs.flatMap fun f => f.darts.map (·.s)).Nodup ∧ ∀ s ∈ fs.flatMap (fun f => f.darts.map (·.s)), s ∈ E ∧ U s := by
  induction h with
  | nil U => simp
  | @cons U f fs h1 h2 ih =>
    obtain ⟨q, ht⟩ := h1.tour
    rw [List.flatMap_cons]
    constructor
    · refine List.nodup_append.2 ⟨ht.nodup, ih.1, ?_⟩
      rintro a ha b hb rfl
      exact (ih.2 a hb).2.2 ha
    · intro s hs
      rcases List.mem_append.1 hs with h | h
      · obtain ⟨d, hd, rfl⟩ := List.mem_map.1 h
        exact ht.mem d hd
      · exact ⟨(ih.2 s h).1, (ih.2 s h).2.1⟩

include hk

/-- The value of the rule on both sides of every walked edge. -/
theorem Tours.sides {fs : List Found} (h : Tours clockwise E R fs) (Φ : K → Pt × Pt → Int)
    (hc : ∀ k, Closed (Φ k) E) (F : (K → Int) → Int)
    (hF : ∀ s ∈ E, ¬ R s → F (bvec Φ E s + cvec Φ s) = F (bvec Φ E s)) :
    ∀ f ∈ fs, ∀ d ∈ f.darts, F (hugV (f.hole == clockwise) Φ E d) = F (bvec Φ E f.top) := by
  intro f hf
  obtain ⟨l1, l2, rfl⟩ := List.append_of_mem hf
  obtain ⟨U', h1, h2, -⟩ := h.split hp quiet_start
  exact h1.inner_const hp hk h2 Φ hc F hF

omit hk in
theorem hug_jump (Φ : K → Pt × Pt → Int) (F : (K → Int) → Int) (cw : Bool) (d : Dart (Pt × Pt)) :
    d.sign * (F (bvec Φ E d.s + cvec Φ d.s) - F (bvec Φ E d.s)) =
      side cw * (F (hugV cw Φ E d) - F (farV cw Φ E d)) := by
  have e1 : hugV cw Φ E d = if d.fwd = cw then bvec Φ E d.s + cvec Φ d.s else bvec Φ E d.s := by
    funext k
    unfold hugV hug
    split <;> simp [bvec, cvec]
  have e2 : farV cw Φ E d = if d.fwd = cw then bvec Φ E d.s else bvec Φ E d.s + cvec Φ d.s := by
    funext k
    unfold farV far
    split <;> simp [bvec, cvec]
  rw [e1, e2]
  unfold Dart.sign side
  cases cw <;> cases d.fwd <;> simp

theorem wind_flatMap (fs : List Found) (hm : ∀ f ∈ fs, ∀ d ∈ f.darts, d.s ∈ E) (q : QPt) :
    segsWind (onKeys (trav (fs.flatMap (·.darts)))) E q =
      (fs.map fun f => segsWind (onKeys (trav f.darts)) E q).sum := by
  have e : ∀ D : List (Dart (Pt × Pt)), (∀ d ∈ D, d.s ∈ E) → segsWind (onKeys (trav D)) E q =
      (D.map fun d => d.sign * edgeWind d.s.a d.s.b q).sum := fun D hD =>
    wsum_trav hp hk (fun s => edgeWind s.a s.b q) D hD
  rw [e _ (by
    intro d hd
    obtain ⟨f, hf, hd⟩ := List.mem_flatMap.1 hd
    exact hm f hf d hd)]
  induction fs with
  | nil => rfl
  | cons f fs ih =>
    rw [List.flatMap_cons, List.map_append, List.sum_append, ih fun f hf => hm f (List.mem_cons_of_mem _ hf),
      List.map_cons, List.sum_cons, e _ (hm f (by simp))]

/-- All contours together wind around a point once if the rule holds there, and not otherwise; the sign is
that of the requested direction. -/
theorem Tours.total {fs : List Found} (h : Tours clockwise E R fs) (Φ : K → Pt × Pt → Int)
    (hc : ∀ k, Closed (Φ k) E) (F : (K → Int) → Int) (hF01 : ∀ v, F v = 0 ∨ F v = 1)
    (hF : ∀ s ∈ E, (F (bvec Φ E s + cvec Φ s) ≠ F (bvec Φ E s) ↔ R s))
    (hhole : ∀ f ∈ fs, F (bvec Φ E f.top + cvec Φ f.top) = if f.hole then 1 else 0)
    (hall : ∀ s, s ∈ E → R s → s ∈ fs.flatMap fun f => f.darts.map (·.s)) (q : QPt) :
    (fs.map fun f => segsWind (onKeys (trav f.darts)) E q).sum =
      (if clockwise then -1 else 1) * (F (fun k => segsWind (Φ k) E q) - F 0) := by
  have hF' : ∀ s ∈ E, ¬ R s → F (bvec Φ E s + cvec Φ s) = F (bvec Φ E s) := by
    intro s hs hR
    by_contra hn
    exact hR ((hF s hs).1 hn)
  have hsides := h.sides hp hk Φ hc F hF'
  obtain ⟨hnd, hmem⟩ := h.nodup
  have hmE : ∀ f ∈ fs, ∀ d ∈ f.darts, d.s ∈ E ∧ R d.s := fun f hf d hd =>
    hmem _ (List.mem_flatMap.2 ⟨f, hf, List.mem_map_of_mem hd⟩)
  rw [← wind_flatMap hp hk fs (fun f hf d hd => (hmE f hf d hd).1), ← jumps_wind Φ F hp hc, ← onKeys_flow hk]
  have hmap : (fs.flatMap (·.darts)).map (·.s) = fs.flatMap fun f => f.darts.map (·.s) := by
    rw [List.map_flatMap]
  unfold segsWind
  rw [← List.sum_map_mul_left]
  congr 1
  refine List.map_congr_left fun s hs => ?_
  rw [onKeys_eq hk _ hs, onKeys_eq hk _ hs]
  rw [← mul_assoc]
  congr 1
  by_cases hR : R s
  · have hin := hall s hs hR
    obtain ⟨f, hf, hsf⟩ := List.mem_flatMap.1 hin
    obtain ⟨d, hd, rfl⟩ := List.mem_map.1 hsf
    rw [trav_sign (by rw [hmap]; exact hnd) (List.mem_flatMap.2 ⟨f, hf, hd⟩)]
    have h1 := hsides f hf d hd
    have h2 := hug_jump hp Φ F (f.hole == clockwise) d
    have h3 := (hF d.s hs).2 hR
    -- the first edge of the contour
    have htop : f.top ∈ E ∧ R f.top := by
      obtain ⟨l1, l2, he⟩ := List.append_of_mem hf
      rw [he] at h
      obtain ⟨U', t1, -, t3⟩ := h.split hp (R := R) quiet_start
      obtain ⟨q', ht⟩ := t1.tour
      exact hmE f hf _ t1.head_mem
    have h4 := (hF f.top htop.1).2 htop.2
    rw [hhole f hf] at h4
    have h5 : F (bvec Φ E f.top) = if f.hole then 0 else 1 := by
      have h01 := hF01 (bvec Φ E f.top)
      revert h4 h01
      cases f.hole <;> simp only [Bool.false_eq_true, if_false, if_true] <;> intros <;> omega
    rw [h5] at h1
    have h6 : F (farV (f.hole == clockwise) Φ E d) = if f.hole then 1 else 0 := by
      have hne : F (hugV (f.hole == clockwise) Φ E d) ≠ F (farV (f.hole == clockwise) Φ E d) := by
        intro he
        rw [he, sub_self, mul_zero] at h2
        apply h3
        have : d.sign ≠ 0 := by unfold Dart.sign; cases d.fwd <;> decide
        have := (mul_eq_zero.1 h2).resolve_left this
        omega
      rw [h1] at hne
      have h01 := hF01 (farV (f.hole == clockwise) Φ E d)
      generalize F (farV (f.hole == clockwise) Φ E d) = z at hne h01 ⊢
      revert hne h01
      cases f.hole <;> simp only [Bool.false_eq_true, if_false, if_true] <;> intros <;> omega
    rw [h1, h6] at h2
    unfold jump
    have e : F (bvec Φ E d.s + cvec Φ d.s) - F (bvec Φ E d.s) =
        d.sign * (d.sign * (F (bvec Φ E d.s + cvec Φ d.s) - F (bvec Φ E d.s))) := by
      rw [← mul_assoc, d.sign_sq, one_mul]
    rw [e, h2]
    unfold side
    cases f.hole <;> cases clockwise <;> simp
  · rw [trav_zero]
    · unfold jump
      rw [hF' s hs hR]; ring
    · rw [hmap]
      intro hin
      exact hR (hmem s hin).2

/-- Below an edge a winding number takes a value it takes at some point. -/
theorem bot_value {φ : Pt × Pt → Int} (hc : Closed φ E) {s : Edge} (hs : s ∈ E) :
    ∃ q, segsWind φ E q = botW φ E s := by
  have hl := hp.lt s hs
  have hx := ab_x_le hl
  have hm : inSeg ⟨((s.a.x:ℚ) + s.b.x) / 2, ((s.a.y:ℚ) + s.b.y) / 2⟩ s.a s.b :=
    ⟨1/2, by norm_num, by norm_num, by simp; ring, by simp; ring⟩
  by_cases c : s.a.x = s.b.x
  · obtain ⟨ε, h0, h⟩ := hp.near_vertical hc hs c hm
    exact ⟨_, (h (ε/2) (by linarith) (by linarith)).1⟩
  · obtain ⟨ε, h0, h⟩ := hp.near_slanted hc hs (by omega) hm
    exact ⟨_, (h (ε/2) (by linarith) (by linarith)).1⟩

/-- Of two contours, the later one lies entirely inside or entirely outside the earlier one. -/
theorem Tours.nested {l1 l2 l3 : List Found} {f f' : Found} (h : Tours clockwise E R (l1 ++ f :: l2 ++ f' :: l3)) :
    (∀ q, segsWind (onKeys (trav f'.darts)) E q ≠ 0 → segsWind (onKeys (trav f.darts)) E q = 0) ∨
    (∀ q, segsWind (onKeys (trav f'.darts)) E q ≠ 0 → segsWind (onKeys (trav f.darts)) E q ≠ 0) := by
  obtain ⟨U', t1, t2, t3⟩ := h.split hp (R := R) quiet_start
  have h' : Tours clockwise E R (l1 ++ f :: (l2 ++ f' :: l3)) := by simpa using h
  obtain ⟨U, u1, u2, u3⟩ := h'.split hp (R := R) quiet_start
  obtain ⟨q1, ht⟩ := t1.tour
  obtain ⟨q2, hu⟩ := u1.tour
  have hχ := hu.trav_closed hp hk
  have hχ' := ht.trav_closed hp hk
  have hfs : ∀ s ∈ E, s ∈ f.darts.map (·.s) → R s ∧ ¬ U' s := by
    intro s _ hs
    constructor
    · obtain ⟨d, hd, rfl⟩ := List.mem_map.1 hs
      exact ((u3 _).1 (hu.mem d hd).2).1
    · intro hU
      refine ((t3 s).1 hU).2 ?_
      rw [List.flatMap_append]
      exact List.mem_append_right _ (by rw [List.flatMap_cons]; exact List.mem_append_left _ hs)
  -- the earlier winding number along the later contour
  have hin := t1.inner_const hp hk t2 (fun _ : Unit => onKeys (trav f.darts)) (fun _ => hχ) (fun v => v ())
    (by
      intro s hs hR
      have : s ∉ f.darts.map (·.s) := fun hm => hR (hfs s hs hm).1
      simp only [Pi.add_apply, cvec]
      rw [onKeys_eq hk _ hs, trav_zero this]; ring)
  -- the product of the winding numbers
  have hcΨ : ∀ b : Bool, Closed ((fun b : Bool => if b then onKeys (trav f.darts) else onKeys (trav f'.darts)) b) E := by
    intro b; cases b
    · exact hχ'
    · exact hχ
  generalize hΨ : (fun b : Bool => if b then onKeys (trav f.darts) else onKeys (trav f'.darts)) = Ψ at hcΨ
  have hΨt : Ψ true = onKeys (trav f.darts) := by rw [← hΨ]; rfl
  have hΨf : Ψ false = onKeys (trav f'.darts) := by rw [← hΨ]; rfl
  have hw := fun q => jumps_wind Ψ (fun v => v true * v false) hp hcΨ q
  have key : ∀ q, segsWind (onKeys (trav f.darts)) E q * segsWind (onKeys (trav f'.darts)) E q =
      botW (onKeys (trav f.darts)) E f'.top * segsWind (onKeys (trav f'.darts)) E q := by
    intro q
    have hq := hw q
    simp only [hΨt, hΨf, Pi.zero_apply, mul_zero, sub_zero] at hq
    rw [← hq, ← onKeys_flow hk]
    unfold segsWind
    rw [← List.sum_map_mul_left]
    congr 1
    refine List.map_congr_left fun s hs => ?_
    rw [← mul_assoc]
    congr 1
    rw [onKeys_eq hk _ hs]
    simp only [jump, bvec, cvec, hΨt, hΨf, Pi.add_apply]
    by_cases hm : s ∈ f'.darts.map (·.s)
    · obtain ⟨d, hd, rfl⟩ := List.mem_map.1 hm
      have h1 := hin d hd
      obtain ⟨h2, h3⟩ := t1.hug_trav hp hk d hd
      have h4 : onKeys (trav f'.darts) d.s.c = d.sign := by
        rw [onKeys_eq hk _ hs, trav_sign ht.nodup hd]
      have hz : onKeys (trav f.darts) d.s.c = 0 := by
        rw [onKeys_eq hk _ hs]
        refine trav_zero fun hm' => ?_
        exact (hfs _ hs hm').2 (ht.mem d hd).2
      simp only [hugV, hug, bvec, hz, ite_self, add_zero] at h1
      rw [hz, h1, h4]; ring
    · have hz : onKeys (trav f'.darts) s.c = 0 := by rw [onKeys_eq hk _ hs]; exact trav_zero hm
      rw [hz]
      by_cases hm' : s ∈ f.darts.map (·.s)
      · rw [t2 _ hχ' (ht.trav_supp hk) s hs (hfs s hs hm').1 (hfs s hs hm').2]; ring
      · have hz' : onKeys (trav f.darts) s.c = 0 := by rw [onKeys_eq hk _ hs]; exact trav_zero hm'
        rw [hz']; ring
  obtain ⟨q0, hq0⟩ := bot_value hp hk hχ (ht.mem _ t1.head_mem).1
  have hval := u1.wind hp hk q0
  rw [hq0] at hval
  have hval : botW (onKeys (trav f.darts)) E f'.top = 0 ∨ botW (onKeys (trav f.darts)) E f'.top = side (f.hole == clockwise) := hval
  rcases hval with h0 | h0
  · left
    intro q hq
    have := key q
    rw [h0, zero_mul] at this
    exact (mul_eq_zero.1 this).resolve_right hq
  · right
    intro q hq hz
    have := key q
    rw [h0, hz, zero_mul] at this
    have h1 := (mul_eq_zero.1 this.symm).resolve_right hq
    unfold side at h1
    split at h1 <;> simp at h1

/-- The first contour is not a hole. -/
theorem Tours.first {fs : List Found} {f : Found} (h : Tours clockwise E R (f :: fs)) (Φ : K → Pt × Pt → Int)
    (hc : ∀ k, Closed (Φ k) E) (F : (K → Int) → Int)
    (hF : ∀ s ∈ E, ¬ R s → F (bvec Φ E s + cvec Φ s) = F (bvec Φ E s)) :
    F (bvec Φ E f.top + cvec Φ f.top) = F 0 := by
  cases h with
  | cons h1 h2 =>
    obtain ⟨q, ht⟩ := h1.tour
    have hs := (ht.mem _ h1.head_mem).1
    have h0 := hp.top_zero (onKeys_closed hp hk hc F) (U := R) (by
      intro s hs hR
      rw [onKeys_eq hk _ hs]
      unfold jump
      rw [hF s hs hR]; ring) hs h1.min h1.top
    rw [onKeys_bot hp hk hc F hs, onKeys_eq hk _ hs] at h0
    unfold jump at h0
    simp only at h0
    omega

omit hp hk in
/-- The edges of a walk as those of a polygon. -/
theorem Tour.polyEdges_eq {cw : Bool} {U : Edge → Prop} {q : Pt} {D : List (Dart (Pt × Pt))} (hT : Tour cw E U q D) :
    polyEdges (D.map Dart.start) = D.map fun d => (d.start, d.finish) := by
  have hz : ∀ (D : List (Dart (Pt × Pt))), (∀ d ∈ D.getLast?, d.finish = q) →
      (∀ pre e f post, D = pre ++ e :: f :: post → e.finish = f.start) →
      ((D.map Dart.start).zip ((D.map Dart.start).tail ++ [q])) = D.map fun d => (d.start, d.finish) := by
    intro D
    induction D with
    | nil => intros; rfl
    | cons x D ih =>
      intro h1 h2
      rcases D with _ | ⟨y, D⟩
      · simp [h1 x rfl]
      · have := ih (fun d hd => h1 d (by rwa [List.getLast?_cons_cons])) (fun pre e f post h => h2 (x :: pre) e f post (by rw [h]; rfl))
        simp only [List.map_cons, List.tail_cons, List.cons_append, List.zip_cons_cons] at this ⊢
        rw [this, h2 [] x y D rfl]
  rw [← hz D hT.last (fun pre e f post h => (hT.next pre e f post h).1)]
  rcases D with _ | ⟨x, D⟩
  · rfl
  · have := hT.first x rfl
    unfold polyEdges
    simp only [List.map_cons, List.tail_cons]
    rw [this]

/-- The points of a walk as a polygon. -/
theorem Tour.polyWind_eq {cw : Bool} {U : Edge → Prop} {q : Pt} {D : List (Dart (Pt × Pt))} (hT : Tour cw E U q D)
    (z : QPt) : polyWind (D.map Dart.start) z = segsWind (onKeys (trav D)) E z := by
  have e := wsum_trav hp hk (fun s => edgeWind s.a s.b z) D (fun d hd => (hT.mem d hd).1)
  change segsWind (onKeys (trav D)) E z = _ at e
  rw [e]
  unfold polyWind
  rw [hT.polyEdges_eq, List.map_map]
  congr 1
  refine List.map_congr_left fun d _ => ?_
  unfold Dart.sign Dart.start Dart.finish Function.comp
  obtain ⟨s, fwd⟩ := d
  cases fwd
  · simp only [Bool.false_eq_true, if_false]
    rw [edgeWind_swap]; ring
  · simp

end

end IOverlay
