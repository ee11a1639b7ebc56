/-
Contours with rational vertices (the exact values of floating point coordinates): winding numbers, distance from edges,
and how little rounding of the vertices changes.
-/
import Verif.Drift

namespace IOverlay

/-! ### specification -/

/-- Contribution of the directed edge `u → v` to the winding number around `q`, as `edgeWind`. -/
noncomputable def edgeWindQ (u v q : QPt) : Int :=
  open Classical in
  if u.x ≤ q.x ∧ q.x < v.x ∧ (v.y - u.y) * (q.x - u.x) < (v.x - u.x) * (q.y - u.y) then 1
  else if v.x ≤ q.x ∧ q.x < u.x ∧ (u.y - v.y) * (q.x - v.x) < (u.x - v.x) * (q.y - v.y) then -1
  else 0

/-- Directed edges of the closed polygon through the given points, of any kind. -/
def cycleEdges {α : Type} : List α → List (α × α)
  | [] => []
  | p :: ps => (p :: ps).zip (ps ++ [p])

/-- Winding number around `q` of the closed polygon through `pts`. -/
noncomputable def polyWindQ (pts : List QPt) (q : QPt) : Int :=
  ((cycleEdges pts).map fun e => edgeWindQ e.1 e.2 q).sum

/-- Winding number around `q` of several polygons. -/
noncomputable def polysWindQ (cs : List (List QPt)) (q : QPt) : Int := (cs.map fun c => polyWindQ c q).sum

/-- `q` is within `d` of the edge `a b` (maximum norm). -/
def WithinQ (d : ℚ) (q a b : QPt) : Prop :=
  ∃ t : ℚ, 0 ≤ t ∧ t ≤ 1 ∧ |q.x - (a.x + t * (b.x - a.x))| ≤ d ∧ |q.y - (a.y + t * (b.y - a.y))| ≤ d

/-- `q` differs from `p` by at most `d` in each coordinate. -/
def Close (d : ℚ) (q p : QPt) : Prop := |q.x - p.x| ≤ d ∧ |q.y - p.y| ≤ d

/-! ### integer vertices -/

theorem edgeWind_q (u v : Pt) (q : QPt) : edgeWind u v q = edgeWindQ u.q v.q q := by
  unfold edgeWind edgeWindQ aboveLine Pt.q
  congr

theorem cycleEdges_map {α β : Type} (g : α → β) (l : List α) :
    cycleEdges (l.map g) = (cycleEdges l).map fun e => (g e.1, g e.2) := by
  cases l with
  | nil => rfl
  | cons p ps =>
    simp only [cycleEdges, List.map_cons]
    rw [← List.map_cons, show ps.map g ++ [g p] = (ps ++ [p]).map g by simp, List.zip_map]
    rfl

theorem polyEdges_cycle (l : List Pt) : polyEdges l = cycleEdges l := by
  cases l <;> rfl

theorem polyWind_q (l : List Pt) (q : QPt) : polyWind l q = polyWindQ (l.map Pt.q) q := by
  unfold polyWind polyWindQ
  rw [cycleEdges_map, List.map_map, polyEdges_cycle]
  congr 1
  exact List.map_congr_left fun e _ => edgeWind_q e.1 e.2 q

theorem polysWind_q (l : List (List Pt)) (q : QPt) : polysWind l q = polysWindQ (l.map fun c => c.map Pt.q) q := by
  unfold polysWind polysWindQ
  rw [List.map_map]
  congr 1
  exact List.map_congr_left fun c _ => polyWind_q c q

theorem within_q {d : ℚ} {q : QPt} {a b : Pt} : Within d q a b ↔ WithinQ d q a.q b.q := by
  constructor
  · rintro ⟨p, ⟨t, t0, t1, hx, hy⟩, h1, h2⟩
    exact ⟨t, t0, t1, by rw [hx] at h1; exact h1, by rw [hy] at h2; exact h2⟩
  · rintro ⟨t, t0, t1, h1, h2⟩
    exact ⟨⟨_, _⟩, ⟨t, t0, t1, rfl, rfl⟩, h1, h2⟩

/-! ### neighbourhoods -/

theorem WithinQ.mono {d e : ℚ} {q a b : QPt} (h : WithinQ d q a b) (hd : d ≤ e) : WithinQ e q a b := by
  obtain ⟨t, t0, t1, h1, h2⟩ := h
  exact ⟨t, t0, t1, h1.trans hd, h2.trans hd⟩

theorem WithinQ.convex {d : ℚ} {u v w a b : QPt} (hu : WithinQ d u a b) (hv : WithinQ d v a b) {t : ℚ} (t0 : 0 ≤ t)
    (t1 : t ≤ 1) (wx : w.x = u.x + t * (v.x - u.x)) (wy : w.y = u.y + t * (v.y - u.y)) : WithinQ d w a b := by
  obtain ⟨r, r0, r1, p1, p2⟩ := hu
  obtain ⟨s, s0, s1, p1', p2'⟩ := hv
  rw [abs_le] at p1 p2 p1' p2'
  refine ⟨r + t * (s - r), by nlinarith, by nlinarith, ?_, ?_⟩
  · rw [wx, abs_le]; constructor <;> nlinarith
  · rw [wy, abs_le]; constructor <;> nlinarith

theorem Close.left {d : ℚ} {u a b : QPt} (h : Close d u a) : WithinQ d u a b :=
  ⟨0, le_refl _, zero_le_one, by simpa using h.1, by simpa using h.2⟩

theorem Close.right {d : ℚ} {u a b : QPt} (h : Close d u b) : WithinQ d u a b :=
  ⟨1, zero_le_one, le_refl _, by simpa using h.1, by simpa using h.2⟩

theorem Close.refl {d : ℚ} (hd : 0 ≤ d) (a : QPt) : Close d a a := by unfold Close; simpa using hd

/-- Points close to an edge with close ends. -/
theorem WithinQ.trans {d e : ℚ} {q u v a b : QPt} (h : WithinQ d q u v) (hu : Close e u a) (hv : Close e v b) :
    WithinQ (d + e) q a b := by
  obtain ⟨t, t0, t1, h1, h2⟩ := h
  obtain ⟨u1, u2⟩ := hu
  obtain ⟨v1, v2⟩ := hv
  rw [abs_le] at *
  refine ⟨t, t0, t1, ?_, ?_⟩ <;> rw [abs_le] <;> constructor <;> nlinarith

/-! ### moving the vertices -/

/-- Around a point outside a convex set, the edges between points of the set wind by the difference of a potential. -/
theorem edgeWindQ_potential {d : ℚ} {q a b : QPt} (hq : ¬ WithinQ d q a b) :
    ∃ f : QPt → Int, ∀ u v : QPt, WithinQ d u a b → WithinQ d v a b → edgeWindQ u v q = f u - f v := by
  classical
  have same : ∀ u v u' v' : QPt, WithinQ d u a b → WithinQ d v a b → WithinQ d u' a b → WithinQ d v' a b →
      u.x ≤ q.x → q.x < v.x → u'.x ≤ q.x → q.x < v'.x → (v.y - u.y) * (q.x - u.x) < (v.x - u.x) * (q.y - u.y) →
      (v'.y - u'.y) * (q.x - u'.x) < (v'.x - u'.x) * (q.y - u'.y) := by
    intro u v u' v' hu hv hu' hv' c1 c2 c3 c4 hab
    by_contra hn
    rw [not_lt] at hn
    apply hq
    have d1 : 0 < v.x - u.x := by linarith
    have d2 : 0 < v'.x - u'.x := by linarith
    obtain ⟨t, ht⟩ : ∃ t : ℚ, t * (v.x - u.x) = q.x - u.x := ⟨(q.x - u.x) / (v.x - u.x), by field_simp⟩
    obtain ⟨t', ht'⟩ : ∃ t : ℚ, t * (v'.x - u'.x) = q.x - u'.x := ⟨(q.x - u'.x) / (v'.x - u'.x), by field_simp⟩
    have t0 : 0 ≤ t := by by_contra h; nlinarith
    have t1 : t ≤ 1 := by by_contra h; nlinarith
    have t0' : 0 ≤ t' := by by_contra h; nlinarith
    have t1' : t' ≤ 1 := by by_contra h; nlinarith
    have w1 : WithinQ d ⟨q.x, u.y + t * (v.y - u.y)⟩ a b := hu.convex hv t0 t1 (by simp only; linarith) rfl
    have w2 : WithinQ d ⟨q.x, u'.y + t' * (v'.y - u'.y)⟩ a b := hu'.convex hv' t0' t1' (by simp only; linarith) rfl
    have y1 : u.y + t * (v.y - u.y) < q.y := by
      have e : (v.x - u.x) * (u.y + t * (v.y - u.y)) = (v.x - u.x) * u.y + (v.y - u.y) * (q.x - u.x) := by
        rw [← ht]; ring
      by_contra h
      have := mul_le_mul_of_nonneg_left (not_lt.1 h) d1.le
      rw [e] at this; linarith
    have y2 : q.y ≤ u'.y + t' * (v'.y - u'.y) := by
      have e : (v'.x - u'.x) * (u'.y + t' * (v'.y - u'.y)) = (v'.x - u'.x) * u'.y + (v'.y - u'.y) * (q.x - u'.x) := by
        rw [← ht']; ring
      by_contra h
      have := mul_lt_mul_of_pos_left (not_le.1 h) d2
      rw [e] at this; linarith
    generalize u.y + t * (v.y - u.y) = A at *
    generalize u'.y + t' * (v'.y - u'.y) = B at *
    have hAB : 0 < B - A := by linarith
    refine w1.convex w2 (t := (q.y - A) / (B - A)) (by apply div_nonneg <;> linarith)
      (by rw [div_le_one hAB]; linarith) (by simp) ?_
    dsimp only; field_simp; ring
  by_cases hc : ∃ u v : QPt, WithinQ d u a b ∧ WithinQ d v a b ∧ u.x ≤ q.x ∧ q.x < v.x ∧
      (v.y - u.y) * (q.x - u.x) < (v.x - u.x) * (q.y - u.y)
  · obtain ⟨u0, v0, a1, a2, a3, a4, a5⟩ := hc
    refine ⟨fun u => if u.x ≤ q.x then 1 else 0, ?_⟩
    intro u v hu hv
    unfold edgeWindQ
    by_cases c1 : u.x ≤ q.x <;> by_cases c2 : v.x ≤ q.x
    · rw [if_neg (by intro h; linarith [h.2.1]), if_neg (by intro h; linarith [h.2.1])]; simp [c1, c2]
    · rw [if_pos ⟨c1, not_le.1 c2, same u0 v0 u v a1 a2 hu hv a3 a4 c1 (not_le.1 c2) a5⟩]; simp [c1, c2]
    · rw [if_neg (by intro h; exact c1 h.1), if_pos ⟨c2, not_le.1 c1, same u0 v0 v u a1 a2 hv hu a3 a4 c2 (not_le.1 c1) a5⟩]
      simp [c1, c2]
    · rw [if_neg (by intro h; exact c1 h.1), if_neg (by intro h; exact c2 h.1)]; simp [c1, c2]
  · refine ⟨fun _ => 0, ?_⟩
    intro u v hu hv
    unfold edgeWindQ
    rw [if_neg fun h => hc ⟨u, v, hu, hv, h⟩, if_neg fun h => hc ⟨v, u, hv, hu, h⟩]; simp

theorem sum_map_sub' {α : Type} (f g : α → Int) (l : List α) :
    (l.map fun x => f x - g x).sum = (l.map f).sum - (l.map g).sum := by
  induction l with
  | nil => rfl
  | cons a l ih => simp only [List.map_cons, List.sum_cons, ih]; ring

/-- Differences around a closed polygon cancel. -/
theorem cycle_sum {α : Type} (h : α → Int) (l : List α) : ((cycleEdges l).map fun e => h e.1 - h e.2).sum = 0 := by
  cases l with
  | nil => rfl
  | cons p ps =>
    have h1 : ((cycleEdges (p :: ps)).map fun e => h e.1 - h e.2).sum =
        (((cycleEdges (p :: ps)).map Prod.fst).map h).sum - (((cycleEdges (p :: ps)).map Prod.snd).map h).sum := by
      rw [List.map_map, List.map_map, sum_map_sub']
      rfl
    rw [h1]
    unfold cycleEdges
    rw [List.map_fst_zip (by simp), List.map_snd_zip (by simp)]
    simp [add_comm]

/-- Moving the vertices of a polygon by at most `d` does not change the winding number around points farther than `d` from
its edges. -/
theorem polyWindQ_moved {α : Type} {d : ℚ} (hd : 0 ≤ d) (f g : α → QPt) (l : List α) (hc : ∀ p ∈ l, Close d (g p) (f p))
    (q : QPt) (hq : ∀ e ∈ cycleEdges l, ¬ WithinQ d q (f e.1) (f e.2)) :
    polyWindQ (l.map g) q = polyWindQ (l.map f) q := by
  have key : ∀ e ∈ cycleEdges l, edgeWindQ (g e.1) (g e.2) q = edgeWindQ (f e.1) (f e.2) q -
      (edgeWindQ (f e.1) (g e.1) q - edgeWindQ (f e.2) (g e.2) q) := by
    intro e he
    obtain ⟨P, hP⟩ := edgeWindQ_potential (hq e he)
    have m : e.1 ∈ l ∧ e.2 ∈ l := by
      cases l with
      | nil => simp [cycleEdges] at he
      | cons p ps =>
        obtain ⟨u, v⟩ := e
        have := List.of_mem_zip he
        refine ⟨this.1, ?_⟩
        rcases List.mem_append.1 this.2 with h | h
        · exact List.mem_cons_of_mem _ h
        · rw [List.mem_singleton.1 h]; exact List.mem_cons_self
    have f1 : WithinQ d (f e.1) (f e.1) (f e.2) := (Close.refl hd _).left
    have f2 : WithinQ d (f e.2) (f e.1) (f e.2) := (Close.refl hd _).right
    have g1 : WithinQ d (g e.1) (f e.1) (f e.2) := (hc _ m.1).left
    have g2 : WithinQ d (g e.2) (f e.1) (f e.2) := (hc _ m.2).right
    rw [hP _ _ g1 g2, hP _ _ f1 f2, hP _ _ f1 g1, hP _ _ f2 g2]
    ring
  unfold polyWindQ
  rw [cycleEdges_map, cycleEdges_map, List.map_map, List.map_map]
  rw [show (cycleEdges l).map ((fun e => edgeWindQ e.1 e.2 q) ∘ fun e => (g e.1, g e.2)) =
      (cycleEdges l).map (fun e => edgeWindQ (f e.1) (f e.2) q -
        (edgeWindQ (f e.1) (g e.1) q - edgeWindQ (f e.2) (g e.2) q)) from List.map_congr_left key]
  rw [sum_map_sub', cycle_sum fun p => edgeWindQ (f p) (g p) q, sub_zero]
  rfl

/-! ### changing the unit -/

/-- The point in units of `1/s`, relative to `c`. -/
def rescale (s : ℚ) (c : QPt) (p : QPt) : QPt := ⟨s * (p.x - c.x), s * (p.y - c.y)⟩

theorem edgeWindQ_scaled {s : ℚ} (hs : 0 < s) (c u v q : QPt) :
    edgeWindQ (rescale s c u) (rescale s c v) (rescale s c q) = edgeWindQ u v q := by
  have le : ∀ a b k : ℚ, s * (a - k) ≤ s * (b - k) ↔ a ≤ b := fun a b k => by
    rw [mul_le_mul_iff_right₀ hs]; constructor <;> intro h <;> linarith
  have lt : ∀ a b k : ℚ, s * (a - k) < s * (b - k) ↔ a < b := fun a b k => by
    rw [mul_lt_mul_iff_right₀ hs]; constructor <;> intro h <;> linarith
  have ar : ∀ u v : QPt, (s * (v.y - c.y) - s * (u.y - c.y)) * (s * (q.x - c.x) - s * (u.x - c.x)) <
      (s * (v.x - c.x) - s * (u.x - c.x)) * (s * (q.y - c.y) - s * (u.y - c.y)) ↔
      (v.y - u.y) * (q.x - u.x) < (v.x - u.x) * (q.y - u.y) := by
    intro u v
    have e1 : (s * (v.y - c.y) - s * (u.y - c.y)) * (s * (q.x - c.x) - s * (u.x - c.x)) =
      (s * s) * ((v.y - u.y) * (q.x - u.x)) := by ring
    have e2 : (s * (v.x - c.x) - s * (u.x - c.x)) * (s * (q.y - c.y) - s * (u.y - c.y)) =
      (s * s) * ((v.x - u.x) * (q.y - u.y)) := by ring
    rw [e1, e2, mul_lt_mul_iff_right₀ (mul_pos hs hs)]
  unfold edgeWindQ rescale
  simp only [le, lt, ar]

theorem polyWindQ_scaled {s : ℚ} (hs : 0 < s) (c : QPt) (l : List QPt) (q : QPt) :
    polyWindQ (l.map (rescale s c)) (rescale s c q) = polyWindQ l q := by
  unfold polyWindQ
  rw [cycleEdges_map, List.map_map]
  congr 1
  exact List.map_congr_left fun e _ => edgeWindQ_scaled hs c _ _ q

theorem withinQ_scaled {s : ℚ} (hs : 0 < s) (c : QPt) {d : ℚ} {q a b : QPt} :
    WithinQ d (rescale s c q) (rescale s c a) (rescale s c b) ↔ WithinQ (d / s) q a b := by
  have e : ∀ x a b k t : ℚ, |s * (x - k) - (s * (a - k) + t * (s * (b - k) - s * (a - k)))| ≤ d ↔
      |x - (a + t * (b - a))| ≤ d / s := by
    intro x a b k t
    rw [show s * (x - k) - (s * (a - k) + t * (s * (b - k) - s * (a - k))) = s * (x - (a + t * (b - a))) by ring,
      abs_mul, abs_of_pos hs, le_div_iff₀ hs, mul_comm]
  unfold WithinQ rescale
  simp only [e]

end IOverlay
