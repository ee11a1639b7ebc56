/-
Edges of two results that cover the same points: if at every vertex the boundary turns, the edges are the same. C69.
-/
import Verif.Chain
import Verif.WindConst
import Verif.FillSides

namespace IOverlay
variable {C : Type}

/-! ### points near a point -/

/-- The point `δ` times the vector away. -/
def QPt.go (q : QPt) (dx dy δ : ℚ) : QPt := ⟨q.x + δ * dx, q.y + δ * dy⟩

theorem affine_pos {A B : ℚ} (h : 0 < A) : ∃ ε : ℚ, 0 < ε ∧ ∀ δ, |δ| < ε → 0 < A + δ * B := by
  have hB : 0 < |B| + 1 := by have := abs_nonneg B; linarith
  refine ⟨A / (|B| + 1), div_pos h hB, fun δ hd => ?_⟩
  rw [lt_div_iff₀ hB] at hd
  have h1 : |δ * B| ≤ |δ| * (|B| + 1) := by
    rw [abs_mul]
    exact mul_le_mul_of_nonneg_left (by linarith) (abs_nonneg δ)
  have h2 := neg_abs_le (δ * B)
  linarith

theorem affine_ne {A B : ℚ} (h : A ≠ 0) : ∃ ε : ℚ, 0 < ε ∧ ∀ δ, |δ| < ε → A + δ * B ≠ 0 := by
  rcases lt_or_gt_of_ne h with h | h
  · obtain ⟨ε, h0, h1⟩ := affine_pos (A := -A) (B := -B) (by linarith)
    exact ⟨ε, h0, fun δ hd e => by have := h1 δ hd; linarith⟩
  · obtain ⟨ε, h0, h1⟩ := affine_pos (A := A) (B := B) h
    exact ⟨ε, h0, fun δ hd e => by have := h1 δ hd; linarith⟩

theorem qarea_go (a b : Pt) (q : QPt) (dx dy δ : ℚ) :
    qarea a b (q.go dx dy δ) = qarea a b q + δ * (((b.y : ℚ) - a.y) * dx - (b.x - a.x) * dy) := by
  unfold qarea QPt.go; ring

private theorem len_pos {a b : Pt} (hab : a ≠ b) :
    0 < ((b.x : ℚ) - a.x) * (b.x - a.x) + ((b.y : ℚ) - a.y) * (b.y - a.y) := by
  by_cases hx : a.x = b.x
  · have hy : a.y ≠ b.y := fun e => hab (Pt.ext_iff'.2 ⟨hx, e⟩)
    have : (b.y : ℚ) - a.y ≠ 0 := _root_.sub_ne_zero.2 (by exact_mod_cast hy.symm)
    nlinarith [mul_self_pos.2 this, mul_self_nonneg ((b.x : ℚ) - a.x)]
  · have : (b.x : ℚ) - a.x ≠ 0 := _root_.sub_ne_zero.2 (by exact_mod_cast (Ne.symm hx))
    nlinarith [mul_self_pos.2 this, mul_self_nonneg ((b.y : ℚ) - a.y)]

/-- Points near a point that is not on the segment are not on the segment. -/
theorem off_seg {a b : Pt} (hab : a ≠ b) {q : QPt} (h : ¬ onSeg q a b) (dx dy : ℚ) :
    ∃ ε : ℚ, 0 < ε ∧ ∀ δ, |δ| < ε → ¬ onSeg (q.go dx dy δ) a b := by
  by_cases ha : qarea a b q = 0
  · obtain ⟨t, ht⟩ := exists_param hab ha
    have hL := len_pos hab
    set L := ((b.x : ℚ) - a.x) * (b.x - a.x) + ((b.y : ℚ) - a.y) * (b.y - a.y) with hLd
    have hD : ∀ (p : QPt) (s : ℚ), atParam p a b s → (p.x - a.x) * (b.x - a.x) + (p.y - a.y) * (b.y - a.y) = s * L := by
      intro p s hs
      rw [hs.1, hs.2, hLd]; ring
    have hDq := hD q t ht
    by_cases h0 : t < 0
    · obtain ⟨ε, e0, e1⟩ := affine_pos (A := -(t * L)) (B := -(dx * (b.x - a.x) + dy * (b.y - a.y)))
        (by have := mul_pos_of_neg_of_neg h0 (neg_lt_zero.2 hL); linarith)
      refine ⟨ε, e0, fun δ hd hon => ?_⟩
      obtain ⟨s, s0, -, hs⟩ := hon
      have h1 := hD _ s hs
      have h2 := e1 δ hd
      have h3 := mul_nonneg s0 hL.le
      unfold QPt.go at h1
      dsimp only at h1
      linarith
    · have h1 : 1 < t := by
        by_contra hc
        exact h ⟨t, not_lt.1 h0, not_lt.1 hc, ht⟩
      obtain ⟨ε, e0, e1⟩ := affine_pos (A := t * L - L) (B := (dx * (b.x - a.x) + dy * (b.y - a.y)))
        (by have := mul_pos (sub_pos.2 h1) hL; linarith)
      refine ⟨ε, e0, fun δ hd hon => ?_⟩
      obtain ⟨s, -, s1, hs⟩ := hon
      have h1 := hD _ s hs
      have h2 := e1 δ hd
      have h3 := mul_le_mul_of_nonneg_right s1 hL.le
      unfold QPt.go at h1
      dsimp only at h1
      linarith
  · obtain ⟨ε, e0, e1⟩ := affine_ne (A := qarea a b q) (B := ((b.y : ℚ) - a.y) * dx - (b.x - a.x) * dy) ha
    refine ⟨ε, e0, fun δ hd hon => ?_⟩
    obtain ⟨s, -, -, hs⟩ := hon
    have := qarea_self hs
    rw [qarea_go] at this
    exact e1 δ hd this

/-- The point lies on one of the edges. -/
def OnAny (E : List (Pt × Pt)) (q : QPt) : Prop := ∃ e ∈ E, onSeg q e.1 e.2

theorem off_segs {E : List (Pt × Pt)} (hE : ∀ e ∈ E, e.1 ≠ e.2) {q : QPt} (h : ¬ OnAny E q) (dx dy : ℚ) :
    ∃ ε : ℚ, 0 < ε ∧ ∀ δ, |δ| < ε → ¬ OnAny E (q.go dx dy δ) := by
  induction E with
  | nil => exact ⟨1, one_pos, fun δ _ => by rintro ⟨e, he, -⟩; simp at he⟩
  | cons e E ih =>
    obtain ⟨ε, e0, e1⟩ := ih (fun f hf => hE f (List.mem_cons_of_mem _ hf))
      (fun ⟨f, hf, hq⟩ => h ⟨f, List.mem_cons_of_mem _ hf, hq⟩)
    obtain ⟨ε', e0', e1'⟩ := off_seg (hE e List.mem_cons_self) (fun hq => h ⟨e, List.mem_cons_self, hq⟩) dx dy
    refine ⟨min ε ε', lt_min e0 e0', fun δ hd => ?_⟩
    obtain ⟨d1, d2⟩ := lt_min_iff.1 hd
    rintro ⟨f, hf, hq⟩
    rcases List.mem_cons.1 hf with rfl | hf
    · exact e1' δ d2 hq
    · exact e1 δ d1 ⟨f, hf, hq⟩

/-- If all points of a short line from `q` lie on edges, an edge through `q` has its direction. -/
theorem along_edge {E : List (Pt × Pt)} (hE : ∀ e ∈ E, e.1 ≠ e.2) {q : QPt} {dx dy : ℚ}
    (h : ∀ δ, 0 < δ → δ ≤ 1 → OnAny E (q.go dx dy δ)) :
    ∃ e ∈ E, onSeg q e.1 e.2 ∧ ((e.2.y : ℚ) - e.1.y) * dx - (e.2.x - e.1.x) * dy = 0 := by
  by_contra hc
  have main : ∀ E' : List (Pt × Pt), (∀ e ∈ E', e ∈ E) → ∃ ε : ℚ, 0 < ε ∧ ∀ δ, 0 < δ → δ < ε →
      ¬ OnAny E' (q.go dx dy δ) := by
    intro E'
    induction E' with
    | nil => exact fun _ => ⟨1, one_pos, fun δ _ _ => by rintro ⟨e, he, -⟩; simp at he⟩
    | cons e E' ih =>
      intro hs
      obtain ⟨ε, e0, e1⟩ := ih fun f hf => hs f (List.mem_cons_of_mem _ hf)
      have he := hs e List.mem_cons_self
      have one : ∃ ε : ℚ, 0 < ε ∧ ∀ δ, 0 < δ → δ < ε → ¬ onSeg (q.go dx dy δ) e.1 e.2 := by
        by_cases hq : onSeg q e.1 e.2
        · refine ⟨1, one_pos, fun δ d0 _ hon => ?_⟩
          obtain ⟨s, -, -, hs⟩ := hon
          obtain ⟨t, t0, t1, ht⟩ := hq
          have h1 := qarea_self hs
          rw [qarea_go, qarea_self ht, zero_add] at h1
          exact hc ⟨e, he, ⟨t, t0, t1, ht⟩, (mul_eq_zero.1 h1).resolve_left d0.ne'⟩
        · obtain ⟨ε, e0, e1⟩ := off_seg (hE e he) hq dx dy
          exact ⟨ε, e0, fun δ d0 d1 => e1 δ (by rwa [abs_of_pos d0])⟩
      obtain ⟨ε', e0', e1'⟩ := one
      refine ⟨min ε ε', lt_min e0 e0', fun δ d0 hd => ?_⟩
      obtain ⟨d1, d2⟩ := lt_min_iff.1 hd
      rintro ⟨f, hf, hq⟩
      rcases List.mem_cons.1 hf with rfl | hf
      · exact e1' δ d0 d2 hq
      · exact e1 δ d0 d1 ⟨f, hf, hq⟩
  obtain ⟨ε, e0, e1⟩ := main E fun _ h => h
  have hm : 0 < min (ε / 2) 1 := lt_min (by linarith) one_pos
  exact e1 (min (ε / 2) 1) hm (lt_of_le_of_lt (min_le_left _ _) (by linarith)) (h _ hm (min_le_right _ _))

/-! ### the sides of an edge -/

/-- The vector to the right of an edge. -/
def sideVec (a b : Pt) : ℚ × ℚ := if a.x = b.x then (1, 0) else (0, -1)

theorem rightOf_go (a b : Pt) (q : QPt) (δ : ℚ) : rightOf a b q δ = q.go (sideVec a b).1 (sideVec a b).2 δ := by
  unfold rightOf sideVec QPt.go
  split <;> simp <;> ring

theorem leftOf_go (a b : Pt) (q : QPt) (δ : ℚ) : leftOf a b q δ = q.go (sideVec a b).1 (sideVec a b).2 (-δ) := by
  unfold leftOf sideVec QPt.go
  split <;> simp; ring

theorem sides_between {a b : Pt} {q p : QPt} {δ : ℚ} (d0 : 0 < δ) (h : p.Between (rightOf a b q δ) (leftOf a b q δ)) :
    ∃ δ', |δ'| ≤ δ ∧ p = q.go (sideVec a b).1 (sideVec a b).2 δ' := by
  obtain ⟨s, s0, s1, hx, hy⟩ := h
  rw [rightOf_go, leftOf_go] at hx hy
  refine ⟨δ - 2 * s * δ, ?_, QPt.ext' ?_ ?_⟩
  · rw [abs_le]; constructor <;> nlinarith
  · rw [hx]; unfold QPt.go; ring
  · rw [hy]; unfold QPt.go; ring

/-- A point beside an edge is not on it. -/
theorem side_off {a b : Pt} (hab : a ≠ b) {q : QPt} (hq : onSeg q a b) {δ : ℚ} (hd : δ ≠ 0) :
    ¬ onSeg (q.go (sideVec a b).1 (sideVec a b).2 δ) a b := by
  rintro ⟨s, -, -, hs⟩
  obtain ⟨t, -, -, ht⟩ := hq
  have := qarea_self hs
  rw [qarea_go, qarea_self ht, zero_add] at this
  have h1 := (mul_eq_zero.1 this).resolve_left hd
  unfold sideVec at h1
  split at h1
  · rename_i hx
    have hy : a.y ≠ b.y := fun e => hab (Pt.ext_iff'.2 ⟨hx, e⟩)
    have : (b.y : ℚ) - a.y ≠ 0 := _root_.sub_ne_zero.2 (by exact_mod_cast hy.symm)
    simp at h1
    exact this h1
  · rename_i hx
    have : (b.x : ℚ) - a.x ≠ 0 := _root_.sub_ne_zero.2 (by exact_mod_cast (Ne.symm hx))
    simp at h1
    exact this h1

/-- If something changes across the edge, and it changes only across the edges of `M`, the edge is covered by `M`. -/
theorem cover {α : Type} {a b : Pt} {f : QPt → α} {ok : QPt → Prop} {M : List (Pt × Pt)}
    (hM : ∀ e ∈ M, e.1 ≠ e.2)
    (h1 : ∀ q, inSeg q a b → ∃ ε : ℚ, 0 < ε ∧ ∀ δ, 0 < δ → δ < ε →
      f (rightOf a b q δ) ≠ f (leftOf a b q δ) ∧ ok (rightOf a b q δ) ∧ ok (leftOf a b q δ))
    (h2 : ∀ q q', ok q → ok q' → (∀ p, OnAny M p → ¬ p.Between q q') → f q = f q') :
    ∀ q, onSeg q a b → OnAny M q := by
  have inner : ∀ q, inSeg q a b → OnAny M q := by
    intro q hq
    by_contra hn
    obtain ⟨ε, e0, e1⟩ := h1 q hq
    obtain ⟨ε', e0', e1'⟩ := off_segs hM hn (sideVec a b).1 (sideVec a b).2
    set δ := min ε ε' / 2 with hδ
    have hm : 0 < min ε ε' := lt_min e0 e0'
    have d0 : 0 < δ := by linarith
    have d1 : δ < ε := lt_of_lt_of_le (by linarith) (min_le_left ε ε')
    have d2 : δ < ε' := lt_of_lt_of_le (by linarith) (min_le_right ε ε')
    obtain ⟨k1, k2, k3⟩ := e1 δ d0 d1
    refine k1 (h2 _ _ k2 k3 fun p hp hb => ?_)
    obtain ⟨δ', hle, rfl⟩ := sides_between d0 hb
    exact e1' δ' (lt_of_le_of_lt hle d2) hp
  intro q hq
  by_contra hn
  rcases onSeg_cases hq with rfl | rfl | h
  · obtain ⟨ε, e0, e1⟩ := off_segs hM hn ((b.x : ℚ) - a.x) (b.y - a.y)
    have hm : 0 < min ε 1 := lt_min e0 one_pos
    have h3 : min ε 1 / 2 < 1 := by have := min_le_right ε 1; linarith
    refine e1 (min ε 1 / 2) (by rw [abs_of_pos (by linarith)]; have := min_le_left ε 1; linarith) (inner _ ?_)
    exact ⟨min ε 1 / 2, by linarith, h3, rfl, rfl⟩
  · obtain ⟨ε, e0, e1⟩ := off_segs hM hn ((a.x : ℚ) - b.x) (a.y - b.y)
    have hm : 0 < min ε 1 := lt_min e0 one_pos
    have h3 : min ε 1 / 2 < 1 := by have := min_le_right ε 1; linarith
    refine e1 (min ε 1 / 2) (by rw [abs_of_pos (by linarith)]; have := min_le_left ε 1; linarith) (inner _ ?_)
    refine ⟨1 - min ε 1 / 2, by linarith, by linarith, ?_, ?_⟩ <;> (unfold QPt.go Pt.q; ring)
  · exact hn (inner q h)

/-- The ends of edges. -/
def ends (N : List (Seg C)) : List (Pt × Pt) := N.map fun s => (s.a, s.b)

theorem onAny_ends {N : List (Seg C)} {q : QPt} : OnAny (ends N) q ↔ ∃ s ∈ N, onSeg q s.a s.b := by
  unfold OnAny ends; simp

theorem segsWind_const {φ : C → Int} {N : List (Seg C)} (hc : Closed φ N) {q q' : QPt}
    (h : ∀ p, OnAny (ends N) p → ¬ p.Between q q') : segsWind φ N q = segsWind φ N q' := by
  have key : ∀ q q' : QPt, q.x ≤ q'.x → (∀ p, OnAny (ends N) p → ¬ p.Between q q') →
      segsWind φ N q = segsWind φ N q' := by
    intro q q' hx h
    obtain ⟨f, hf⟩ := edgeWind_const hx
    have h0 := hc f
    have : segsWind φ N q - segsWind φ N q' = segSum φ (fun a b => f a - f b) N := by
      have main : ∀ M : List (Seg C), (∀ s ∈ M, s ∈ N) →
          segsWind φ M q - segsWind φ M q' = segSum φ (fun a b => f a - f b) M := by
        intro M
        induction M with
        | nil => intro _; simp
        | cons s M ih =>
          intro hs
          have e := hf s.a s.b fun p hp => h p (onAny_ends.2 ⟨s, hs s List.mem_cons_self, hp⟩)
          have := ih fun t ht => hs t (List.mem_cons_of_mem _ ht)
          rw [segsWind_cons, segsWind_cons, segSum_cons]
          linear_combination φ s.c * e + this
      exact main N fun _ h => h
    rw [h0] at this
    omega
  rcases le_total q.x q'.x with hx | hx
  · exact key q q' hx h
  · exact (key q' q hx fun p hp hb => h p hp hb.symm).symm

/-- Beside an inner point of an edge of a planar set there are no edges. -/
theorem Planar.beside {N : List (Seg C)} (hp : Planar N) {s : Seg C} (hs : s ∈ N) {q : QPt} (hq : inSeg q s.a s.b) :
    ∃ ε : ℚ, 0 < ε ∧ ∀ δ, 0 < δ → δ < ε → ¬ OnAny (ends N) (rightOf s.a s.b q δ) ∧ ¬ OnAny (ends N) (leftOf s.a s.b q δ) := by
  classical
  have hne : ∀ t ∈ N, t.a ≠ t.b := fun t ht => Pt.ne_of_lt (hp.lt t ht)
  obtain ⟨ε, e0, e1⟩ := off_segs (E := ends (N.filter fun t => decide (t ≠ s))) (q := q)
    (by
      intro e he
      obtain ⟨t, ht, rfl⟩ := List.mem_map.1 he
      exact hne t (List.mem_filter.1 ht).1)
    (by
      rw [onAny_ends]
      rintro ⟨t, ht, hqt⟩
      obtain ⟨t1, t2⟩ := List.mem_filter.1 ht
      rcases (hp.meet hs t1 (Ne.symm (by simpa using t2)) q hq.on hqt).1 with h | h
      · exact (hq.ne (hne s hs)).1 h
      · exact (hq.ne (hne s hs)).2 h) (sideVec s.a s.b).1 (sideVec s.a s.b).2
  have key : ∀ δ, δ ≠ 0 → |δ| < ε → ¬ OnAny (ends N) (q.go (sideVec s.a s.b).1 (sideVec s.a s.b).2 δ) := by
    intro δ d0 d1 hon
    obtain ⟨t, ht, hqt⟩ := onAny_ends.1 hon
    by_cases hts : t = s
    · subst hts; exact side_off (hne t ht) hq.on d0 hqt
    · exact e1 δ d1 (onAny_ends.2 ⟨t, List.mem_filter.2 ⟨ht, by simpa using hts⟩, hqt⟩)
  refine ⟨ε, e0, fun δ d0 d1 => ?_⟩
  rw [rightOf_go, leftOf_go]
  exact ⟨key δ d0.ne' (by rwa [abs_of_pos d0]), key (-δ) (by simpa using d0.ne') (by rwa [abs_neg, abs_of_pos d0])⟩

/-! ### equal edges -/

/-- At every vertex two lines that lie on the edges start in different directions. -/
def Turning (N : List (Seg C)) : Prop := ∀ s ∈ N, ∀ v, v = s.a ∨ v = s.b → ∃ w w' : Pt, area2 v w w' ≠ 0 ∧
  (∀ q, onSeg q v w → OnAny (ends N) q) ∧ ∀ q, onSeg q v w' → OnAny (ends N) q

variable {D : Type}

theorem Turning.not_inside {N : List (Seg C)} {M : List (Seg D)} (hp : Planar N) (ht : Turning M)
    (hc : ∀ q, OnAny (ends M) q → OnAny (ends N) q) {n : Seg C} (hn : n ∈ N) {m : Seg D} (hm : m ∈ M) {v : Pt}
    (hv : v = m.a ∨ v = m.b) : ¬ inSeg v.q n.a n.b := by
  intro hin
  obtain ⟨w, w', h0, h1, h2⟩ := ht m hm v hv
  have hne : ∀ t ∈ N, t.a ≠ t.b := fun t ht => Pt.ne_of_lt (hp.lt t ht)
  have hE : ∀ e ∈ ends N, e.1 ≠ e.2 := by
    intro e he
    obtain ⟨t, ht, rfl⟩ := List.mem_map.1 he
    exact hne t ht
  have dir : ∀ w : Pt, (∀ q, onSeg q v w → OnAny (ends M) q) →
      ((n.b.y : ℚ) - n.a.y) * (w.x - v.x) - (n.b.x - n.a.x) * (w.y - v.y) = 0 := by
    intro w hw
    obtain ⟨e, e1, e2, e3⟩ := along_edge hE (q := v.q) (dx := (w.x : ℚ) - v.x) (dy := w.y - v.y) (by
      intro δ d0 d1
      exact hc _ (hw _ ⟨δ, d0.le, d1, rfl, rfl⟩))
    obtain ⟨t, ht, rfl⟩ := List.mem_map.1 e1
    by_cases htn : t = n
    · subst htn; exact e3
    · exfalso
      rcases (hp.meet hn ht (Ne.symm htn) _ hin.on e2).1 with h | h
      · exact (hin.ne (hne n hn)).1 h
      · exact (hin.ne (hne n hn)).2 h
  have d1 := dir w h1
  have d2 := dir w' h2
  have hx : ((n.b.x : ℚ) - n.a.x) * (((w.x : ℚ) - v.x) * (w'.y - v.y) - (w.y - v.y) * (w'.x - v.x)) = 0 := by
    linear_combination ((w'.x : ℚ) - v.x) * d1 - (w.x - v.x) * d2
  have hy : ((n.b.y : ℚ) - n.a.y) * (((w.x : ℚ) - v.x) * (w'.y - v.y) - (w.y - v.y) * (w'.x - v.x)) = 0 := by
    linear_combination ((w'.y : ℚ) - v.y) * d1 - (w.y - v.y) * d2
  have hz : ((w.x : ℚ) - v.x) * (w'.y - v.y) - (w.y - v.y) * (w'.x - v.x) ≠ 0 := by
    intro e
    apply h0
    have : ((area2 v w w' : ℤ) : ℚ) = 0 := by
      unfold area2; push_cast; linarith
    exact_mod_cast this
  have ex := (mul_eq_zero.1 hx).resolve_right hz
  have ey := (mul_eq_zero.1 hy).resolve_right hz
  refine hne n hn (Pt.ext_iff'.2 ⟨?_, ?_⟩)
  · have : (n.b.x : ℚ) = n.a.x := by linarith
    exact_mod_cast this.symm
  · have : (n.b.y : ℚ) = n.a.y := by linarith
    exact_mod_cast this.symm

/-- Planar sets of edges that lie on each other and turn at every vertex have the same edges. -/
theorem Turning.same {N : List (Seg C)} {M : List (Seg D)} (hp : Planar N) (hq : Planar M) (hN : Turning N)
    (hM : Turning M) (h1 : ∀ q, OnAny (ends N) q → OnAny (ends M) q) (h2 : ∀ q, OnAny (ends M) q → OnAny (ends N) q) :
    ∀ n ∈ N, ∃ m ∈ M, m.a = n.a ∧ m.b = n.b := by
  intro n hn
  have hne : n.a ≠ n.b := Pt.ne_of_lt (hp.lt n hn)
  have hE : ∀ e ∈ ends M, e.1 ≠ e.2 := by
    intro e he
    obtain ⟨t, ht, rfl⟩ := List.mem_map.1 he
    exact Pt.ne_of_lt (hq.lt t ht)
  set c : QPt := ⟨((n.a.x:ℚ) + n.b.x) / 2, ((n.a.y:ℚ) + n.b.y) / 2⟩ with hcd
  have hc : atParam c n.a n.b (1 / 2) := ⟨by rw [hcd]; ring, by rw [hcd]; ring⟩
  obtain ⟨e, e1, e2, e3⟩ := along_edge hE (q := c) (dx := ((n.b.x : ℚ) - n.a.x) / 2) (dy := (n.b.y - n.a.y) / 2) (by
    intro δ d0 d1
    refine h1 _ (onAny_ends.2 ⟨n, hn, (1 + δ) / 2, by linarith, by linarith, ?_, ?_⟩) <;>
    · unfold QPt.go; rw [hcd]; ring)
  obtain ⟨m, hm, rfl⟩ := List.mem_map.1 e1
  dsimp only at e2 e3
  have hmlt := hq.lt m hm
  obtain ⟨t, t0, t1, ht⟩ := e2
  -- the ends of `m` on the line of `n`
  have hline : ∀ δ : ℚ, qarea n.a n.b (c.go (m.b.x - m.a.x) (m.b.y - m.a.y) δ) = 0 := by
    intro δ
    rw [qarea_go, qarea_self hc]
    linear_combination (-2 * δ) * e3
  have ea : c.go (m.b.x - m.a.x) (m.b.y - m.a.y) (-t) = m.a.q := by
    refine QPt.ext' ?_ ?_
    · show c.x + -t * _ = (m.a.x : ℚ); rw [ht.1]; ring
    · show c.y + -t * _ = (m.a.y : ℚ); rw [ht.2]; ring
  have eb : c.go (m.b.x - m.a.x) (m.b.y - m.a.y) (1 - t) = m.b.q := by
    refine QPt.ext' ?_ ?_
    · show c.x + (1 - t) * _ = (m.b.x : ℚ); rw [ht.1]; ring
    · show c.y + (1 - t) * _ = (m.b.y : ℚ); rw [ht.2]; ring
  have la := hline (-t); rw [ea] at la
  have lb := hline (1 - t); rw [eb] at lb
  obtain ⟨α, hα⟩ := exists_param hne la
  obtain ⟨β, hβ⟩ := exists_param hne lb
  have hmid : (1 - t) * α + t * β = 1 / 2 := by
    have hx : ((n.b.x : ℚ) - n.a.x) * ((1 - t) * α + t * β - 1 / 2) = 0 := by
      have h3 := ht.1; have h4 := hc.1; have h5 := hα.1; have h6 := hβ.1
      simp only [Pt.q] at h5 h6
      linear_combination h4 - h3 - (1 - t) * h5 - t * h6
    have hy : ((n.b.y : ℚ) - n.a.y) * ((1 - t) * α + t * β - 1 / 2) = 0 := by
      have h3 := ht.2; have h4 := hc.2; have h5 := hα.2; have h6 := hβ.2
      simp only [Pt.q] at h5 h6
      linear_combination h4 - h3 - (1 - t) * h5 - t * h6
    by_contra hz
    have hz' : (1 - t) * α + t * β - 1 / 2 ≠ 0 := fun e => hz (by linarith)
    have ex := (mul_eq_zero.1 hx).resolve_right hz'
    have ey := (mul_eq_zero.1 hy).resolve_right hz'
    refine hne (Pt.ext_iff'.2 ⟨?_, ?_⟩)
    · have : (n.b.x : ℚ) = n.a.x := by linarith
      exact_mod_cast this.symm
    · have : (n.b.y : ℚ) = n.a.y := by linarith
      exact_mod_cast this.symm
  have na := hM.not_inside hp h2 hn hm (v := m.a) (Or.inl rfl)
  have nb := hM.not_inside hp h2 hn hm (v := m.b) (Or.inr rfl)
  have ma := hN.not_inside hq h1 hm hn (v := n.a) (Or.inl rfl)
  have mb := hN.not_inside hq h1 hm hn (v := n.b) (Or.inr rfl)
  have ca : α ≤ 0 ∨ 1 ≤ α := by
    by_contra hh
    rw [not_or, not_le, not_le] at hh
    exact na ⟨α, hh.1, hh.2, hα⟩
  have cb : β ≤ 0 ∨ 1 ≤ β := by
    by_contra hh
    rw [not_or, not_le, not_le] at hh
    exact nb ⟨β, hh.1, hh.2, hβ⟩
  -- a point of `n` with parameter `γ` in `m`
  have inm : ∀ γ : ℚ, ∀ p : Pt, atParam p.q n.a n.b γ → ((α < γ ∧ γ < β) ∨ (β < γ ∧ γ < α)) → inSeg p.q m.a m.b := by
    intro γ p hγ hb
    have hd : β - α ≠ 0 := by rcases hb with ⟨h, h'⟩ | ⟨h, h'⟩ <;> (intro e; linarith)
    refine ⟨(γ - α) / (β - α), ?_, ?_, ?_, ?_⟩
    · rcases hb with ⟨h, h'⟩ | ⟨h, h'⟩
      · exact div_pos (by linarith) (by linarith)
      · exact div_pos_of_neg_of_neg (by linarith) (by linarith)
    · rcases hb with ⟨h, h'⟩ | ⟨h, h'⟩
      · rw [div_lt_one (by linarith)]; linarith
      · rw [div_lt_one_of_neg (by linarith)]; linarith
    · have h5 := hα.1; have h6 := hβ.1
      simp only [Pt.q] at h5 h6
      rw [hγ.1, h5, h6]; field_simp; ring
    · have h5 := hα.2; have h6 := hβ.2
      simp only [Pt.q] at h5 h6
      rw [hγ.2, h5, h6]; field_simp; ring
  have p0 : atParam n.a.q n.a n.b 0 := atParam_left _ _
  have p1 : atParam n.b.q n.a n.b 1 := ⟨by simp [Pt.q], by simp [Pt.q]⟩
  refine ⟨m, hm, ?_⟩
  rcases ca with ca | ca <;> rcases cb with cb | cb
  · exfalso; nlinarith
  · have a0 : α = 0 := by
      by_contra h
      exact ma (inm 0 _ p0 (Or.inl ⟨lt_of_le_of_ne ca h, by linarith⟩))
    have b1 : β = 1 := by
      by_contra h
      exact mb (inm 1 _ p1 (Or.inl ⟨by linarith, lt_of_le_of_ne cb (Ne.symm h)⟩))
    subst a0 b1
    exact ⟨Pt.q_inj (atParam_zero hα), Pt.q_inj (atParam_one hβ)⟩
  · exfalso
    have a1 : α = 1 := by
      by_contra h
      exact mb (inm 1 _ p1 (Or.inr ⟨by linarith, lt_of_le_of_ne ca (Ne.symm h)⟩))
    have b0 : β = 0 := by
      by_contra h
      exact ma (inm 0 _ p0 (Or.inr ⟨lt_of_le_of_ne cb h, by linarith⟩))
    subst a1 b0
    have k1 : m.a = n.b := Pt.q_inj (atParam_one hα)
    have k2 : m.b = n.a := Pt.q_inj (atParam_zero hβ)
    rw [k1, k2] at hmlt
    exact Pt.lt_asymm hmlt (hp.lt n hn)
  · exfalso; nlinarith

end IOverlay
