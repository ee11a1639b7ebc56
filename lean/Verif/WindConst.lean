/-
The winding number of closed contours does not change along a line that does not meet them.
-/
import Verif.BuildLemmas

namespace IOverlay
variable {C : Type}

/-- `p` lies on the closed line between two points of the plane. -/
def QPt.Between (p q q' : QPt) : Prop :=
  ∃ s : ℚ, 0 ≤ s ∧ s ≤ 1 ∧ p.x = q.x + s * (q'.x - q.x) ∧ p.y = q.y + s * (q'.y - q.y)

theorem QPt.Between.symm {p q q' : QPt} (h : p.Between q q') : p.Between q' q := by
  obtain ⟨s, h0, h1, hx, hy⟩ := h
  exact ⟨1 - s, by linarith, by linarith, by rw [hx]; ring, by rw [hy]; ring⟩

/-- An affine function without zero on an interval keeps its sign. -/
theorem affine_sign {α β x1 x2 : ℚ} (hx : x1 ≤ x2) (h : ∀ x, x1 ≤ x → x ≤ x2 → α + β * x ≠ 0) :
    α + β * x1 < 0 ↔ α + β * x2 < 0 := by
  have key : ∀ a b : ℚ, x1 ≤ a → a ≤ x2 → x1 ≤ b → b ≤ x2 → α + β * a < 0 → α + β * b < 0 := by
    intro a b a1 a2 b1 b2 ha
    by_contra hb
    have hb : 0 < α + β * b := lt_of_le_of_ne (not_lt.1 hb) (h b b1 b2).symm
    have hd : 0 < (α + β * b) - (α + β * a) := by linarith
    set s := (- (α + β * a)) / ((α + β * b) - (α + β * a)) with hs
    have s0 : 0 ≤ s := div_nonneg (by linarith) hd.le
    have s1 : s ≤ 1 := by rw [hs, div_le_one hd]; linarith
    have e : s * ((α + β * b) - (α + β * a)) = - (α + β * a) := by rw [hs]; field_simp
    refine h (a + s * (b - a)) ?_ ?_ (by linarith)
    · nlinarith
    · nlinarith
  exact ⟨key _ _ (le_refl _) hx hx (le_refl _), key _ _ hx (le_refl _) (le_refl _) hx⟩

theorem edgeWind_up {u v : Pt} (h : (u.x : ℚ) ≤ v.x) (q : QPt) :
    edgeWind u v q = open Classical in if (u.x : ℚ) ≤ q.x ∧ q.x < v.x ∧ aboveLine u v q then 1 else 0 := by
  classical
  unfold edgeWind
  split
  · rfl
  · rw [if_neg]
    intro h'; linarith [h'.1, h'.2.1]

theorem aboveLine_height {u v : Pt} {q : QPt} (h : (u.x : ℚ) < v.x) :
    aboveLine u v q ↔ u.y + (q.x - u.x) / (v.x - u.x) * ((v.y : ℚ) - u.y) < q.y := by
  have d : 0 < (v.x : ℚ) - u.x := by linarith
  unfold aboveLine
  rw [← sub_pos, ← sub_pos (b := _ + _)]
  have e : q.y - (u.y + (q.x - u.x) / (v.x - u.x) * ((v.y : ℚ) - u.y)) =
      (((v.x : ℚ) - u.x) * (q.y - u.y) - ((v.y : ℚ) - u.y) * (q.x - u.x)) / (v.x - u.x) := by
    field_simp; ring
  rw [e, div_pos_iff_of_pos_right d]

/-- Edges that do not meet the line from `q` to `q'` wind around its ends by a difference of potentials. -/
theorem edgeWind_const {q q' : QPt} (hx : q.x ≤ q'.x) : ∃ f : Pt → Int, ∀ u v : Pt,
    (∀ p, onSeg p u v → ¬ p.Between q q') → edgeWind u v q - edgeWind u v q' = f u - f v := by
  classical
  -- it suffices to treat edges going right
  suffices h : ∃ f : Pt → Int, ∀ u v : Pt, (u.x : ℚ) ≤ v.x →
      (∀ p, onSeg p u v → ¬ p.Between q q') → edgeWind u v q - edgeWind u v q' = f u - f v by
    obtain ⟨f, hf⟩ := h
    refine ⟨f, fun u v hm => ?_⟩
    rcases le_total (u.x : ℚ) v.x with h | h
    · exact hf u v h hm
    · have := hf v u h fun p hp => hm p ?_
      · rw [edgeWind_swap u v, edgeWind_swap u v] at this; omega
      · obtain ⟨t, t0, t1, px, py⟩ := hp
        exact ⟨1 - t, by linarith, by linarith, by rw [px]; ring, by rw [py]; ring⟩
  rcases eq_or_lt_of_le hx with hx | hx
  · -- a vertical line
    refine ⟨fun _ => 0, fun u v huv hm => ?_⟩
    rw [edgeWind_up huv, edgeWind_up huv, ← hx]
    suffices h : ((u.x : ℚ) ≤ q.x ∧ q.x < v.x ∧ aboveLine u v q) ↔ ((u.x : ℚ) ≤ q.x ∧ q.x < v.x ∧ aboveLine u v q') by
      simp only [h]; simp
    refine and_congr_right fun c1 => and_congr_right fun c2 => ?_
    have d : 0 < (v.x : ℚ) - u.x := by linarith
    rw [aboveLine_height (by linarith), aboveLine_height (by linarith), ← hx]
    have on : onSeg ⟨q.x, u.y + (q.x - u.x) / (v.x - u.x) * ((v.y : ℚ) - u.y)⟩ u v :=
      ⟨(q.x - u.x) / (v.x - u.x), div_nonneg (by linarith) d.le, by rw [div_le_one d]; linarith, by field_simp; ring, rfl⟩
    generalize u.y + (q.x - u.x) / (v.x - u.x) * ((v.y : ℚ) - u.y) = H at *
    have hn := hm _ on
    have bt : ∀ A B : ℚ, A ≤ H → H ≤ B → A < B →
        ∃ s : ℚ, 0 ≤ s ∧ s ≤ 1 ∧ H = A + s * (B - A) := by
      intro A B h1 h2 h3
      have : 0 < B - A := by linarith
      exact ⟨(H - A) / (B - A), div_nonneg (by linarith) this.le, by rw [div_le_one this]; linarith, by field_simp; ring⟩
    constructor
    · intro h1
      by_contra h2
      obtain ⟨s, s0, s1, e⟩ := bt q'.y q.y (not_lt.1 h2) h1.le (by linarith)
      exact hn (QPt.Between.symm ⟨s, s0, s1, by simp [hx], e⟩)
    · intro h1
      by_contra h2
      obtain ⟨s, s0, s1, e⟩ := bt q.y q'.y (not_lt.1 h2) h1.le (by linarith)
      exact hn ⟨s, s0, s1, by simp [hx], e⟩
  · have L : 0 < q'.x - q.x := by linarith
    set G : ℚ → ℚ := fun x => q.y + (x - q.x) / (q'.x - q.x) * (q'.y - q.y) with hG
    have Gq : G q.x = q.y := by simp [hG]
    have Gq' : G q'.x = q'.y := by simp only [hG]; field_simp; ring
    have betw : ∀ x : ℚ, q.x ≤ x → x ≤ q'.x → (⟨x, G x⟩ : QPt).Between q q' := by
      intro x h1 h2
      exact ⟨(x - q.x) / (q'.x - q.x), div_nonneg (by linarith) L.le, by rw [div_le_one L]; linarith,
        by field_simp; ring, rfl⟩
    refine ⟨fun u => if q.x < u.x ∧ (u.x : ℚ) ≤ q'.x ∧ (u.y : ℚ) < G u.x then -1 else 0, fun u v huv hm => ?_⟩
    rw [edgeWind_up huv, edgeWind_up huv]
    rcases eq_or_lt_of_le huv with huv | huv
    · -- a vertical edge
      rw [if_neg (by intro h; linarith [h.1, h.2.1]), if_neg (by intro h; linarith [h.1, h.2.1])]
      dsimp only
      rw [← huv]
      suffices h : (q.x < u.x ∧ (u.x : ℚ) ≤ q'.x ∧ (u.y : ℚ) < G u.x) ↔ (q.x < u.x ∧ (u.x : ℚ) ≤ q'.x ∧ (v.y : ℚ) < G u.x) by
        simp only [h]; simp
      refine and_congr_right fun c1 => and_congr_right fun c2 => ?_
      have hn := fun h => hm ⟨u.x, G u.x⟩ h (betw _ c1.le c2)
      generalize G u.x = g at hn
      by_contra hne
      apply hn
      by_cases h1 : (u.y : ℚ) < g
      · have h2 : ¬ (v.y : ℚ) < g := fun h2 => hne ⟨fun _ => h2, fun _ => h1⟩
        have : 0 < (v.y : ℚ) - u.y := by linarith
        exact ⟨(g - u.y) / (v.y - u.y), div_nonneg (by linarith) this.le, by rw [div_le_one this]; linarith,
          by simp [huv], by simp only; field_simp; ring⟩
      · have h2 : (v.y : ℚ) < g := by by_contra h2; exact hne ⟨fun h => absurd h h1, fun h => absurd h h2⟩
        have : 0 < (u.y : ℚ) - v.y := by linarith
        exact ⟨(u.y - g) / (u.y - v.y), div_nonneg (by linarith) this.le, by rw [div_le_one this]; linarith,
          by simp [huv], by simp only; field_simp; ring⟩
    · have d : 0 < (v.x : ℚ) - u.x := by linarith
      set H : ℚ → ℚ := fun x => u.y + (x - u.x) / (v.x - u.x) * ((v.y : ℚ) - u.y) with hH
      have Hu : H u.x = u.y := by simp [hH]
      have Hv : H v.x = v.y := by simp only [hH]; field_simp; ring
      have a1 : aboveLine u v q ↔ H q.x < G q.x := by rw [aboveLine_height huv, Gq]
      have a2 : aboveLine u v q' ↔ H q'.x < G q'.x := by rw [aboveLine_height huv, Gq']
      -- the edge stays on one side of the line
      have side : ∀ x1 x2 : ℚ, x1 ≤ x2 → (u.x : ℚ) ≤ x1 → x2 ≤ v.x → q.x ≤ x1 → x2 ≤ q'.x →
          (H x1 < G x1 ↔ H x2 < G x2) := by
        intro x1 x2 h12 h1 h2 h3 h4
        have e : ∀ x, H x - G x = (u.y - u.x / (v.x - u.x) * ((v.y : ℚ) - u.y) - q.y + q.x / (q'.x - q.x) * (q'.y - q.y)) +
            (1 / (v.x - u.x) * ((v.y : ℚ) - u.y) - 1 / (q'.x - q.x) * (q'.y - q.y)) * x := by
          intro x; simp only [hH, hG]; ring
        have := affine_sign (α := u.y - u.x / (v.x - u.x) * ((v.y : ℚ) - u.y) - q.y + q.x / (q'.x - q.x) * (q'.y - q.y))
          (β := 1 / (v.x - u.x) * ((v.y : ℚ) - u.y) - 1 / (q'.x - q.x) * (q'.y - q.y)) h12 (by
            intro x y1 y2 h0
            rw [← e] at h0
            refine hm ⟨x, G x⟩ ⟨(x - u.x) / (v.x - u.x), div_nonneg (by linarith) d.le,
              by rw [div_le_one d]; linarith, by field_simp; ring, ?_⟩ (betw x (by linarith) (by linarith))
            show G x = H x
            linarith)
        rw [← e, ← e] at this
        constructor
        · intro h; linarith [this.1 (by linarith)]
        · intro h; linarith [this.2 (by linarith)]
      dsimp only
      rw [a1, a2, ← Hu, ← Hv]
      by_cases c1 : (u.x : ℚ) ≤ q.x <;> by_cases c2 : (v.x : ℚ) ≤ q.x <;> by_cases c3 : (u.x : ℚ) ≤ q'.x <;>
        by_cases c4 : (v.x : ℚ) ≤ q'.x <;> try (exfalso; linarith)
      · simp [c1, c2, c3, c4, not_lt.2 c1, not_lt.2 c2, not_lt.2 c4]
      · have c2' := not_le.1 c2
        have := side q.x v.x c2'.le c1 (le_refl _) (le_refl _) c4
        by_cases h : H v.x < G v.x
        · simp [c1, c2', c3, c4, not_lt.2 c1, not_lt.2 c4, h, this.2 h]
        · have h' : ¬ H q.x < G q.x := fun h' => h (this.1 h')
          simp [c1, c2', c3, c4, not_lt.2 c1, not_lt.2 c4, h, h']
      · have c2' := not_le.1 c2
        have c4' := not_le.1 c4
        have := side q.x q'.x hx.le c1 c4'.le (le_refl _) (le_refl _)
        by_cases h : H q'.x < G q'.x
        · simp [c1, c2', c3, c4, c4', not_lt.2 c1, h, this.2 h]
        · have h' : ¬ H q.x < G q.x := fun h' => h (this.1 h')
          simp [c1, c2', c3, c4, c4', not_lt.2 c1, h, h']
      · have c1' := not_le.1 c1
        have c2' := not_le.1 c2
        have := side u.x v.x huv.le (le_refl _) (le_refl _) c1'.le c4
        by_cases h : H v.x < G v.x
        · simp [c1, c1', c2', c3, c4, not_lt.2 c4, h, this.2 h]
        · have h' : ¬ H u.x < G u.x := fun h' => h (this.1 h')
          simp [c1, c1', c2', c3, c4, not_lt.2 c4, h, h']
      · have c1' := not_le.1 c1
        have c2' := not_le.1 c2
        have c4' := not_le.1 c4
        have := side u.x q'.x c3 (le_refl _) c4'.le c1'.le (le_refl _)
        by_cases h : H q'.x < G q'.x
        · simp [c1, c1', c2', c3, c4, c4', h, this.2 h]
        · have h' : ¬ H u.x < G u.x := fun h' => h (this.1 h')
          simp [c1, c1', c2', c3, c4, c4', h, h']
      · simp [c1, c2, c3, c4]

/-- The winding number of closed contours is the same at the ends of a line that meets none of their edges. -/
theorem polysWind_const {cs : List (List Pt)} {q q' : QPt}
    (h : ∀ e ∈ cs.flatMap polyEdges, ∀ p, onSeg p e.1 e.2 → ¬ p.Between q q') : polysWind cs q = polysWind cs q' := by
  have tele : ∀ (f : Pt → Int) (c : List Pt), ((polyEdges c).map fun e => f e.1 - f e.2).sum = 0 := by
    intro f c
    rcases c with _ | ⟨p, ps⟩
    · rfl
    · have : ∀ (l : List Pt) (a b : Pt), (((a :: l).zip (l ++ [b])).map fun e => f e.1 - f e.2).sum = f a - f b := by
        intro l
        induction l with
        | nil => intro a b; simp
        | cons m l ih =>
          intro a b
          rw [List.cons_append, List.zip_cons_cons, List.map_cons, List.sum_cons, ih]
          ring
      rw [polyEdges, this]; ring
  have key : ∀ q q' : QPt, q.x ≤ q'.x → (∀ e ∈ cs.flatMap polyEdges, ∀ p, onSeg p e.1 e.2 → ¬ p.Between q q') →
      polysWind cs q = polysWind cs q' := by
    intro q q' hx h
    obtain ⟨f, hf⟩ := edgeWind_const hx
    unfold polysWind
    congr 1
    refine List.map_congr_left fun c hc => ?_
    have e : ((polyEdges c).map fun e => edgeWind e.1 e.2 q - edgeWind e.1 e.2 q').sum = 0 := by
      rw [← tele f c]
      congr 1
      refine List.map_congr_left fun e he => hf e.1 e.2 (h e (List.mem_flatMap.2 ⟨c, hc, he⟩))
    have : ∀ l : List (Pt × Pt), (l.map fun e => edgeWind e.1 e.2 q - edgeWind e.1 e.2 q').sum =
        (l.map fun e => edgeWind e.1 e.2 q).sum - (l.map fun e => edgeWind e.1 e.2 q').sum := by
      intro l
      induction l with
      | nil => rfl
      | cons a l ih => simp only [List.map_cons, List.sum_cons, ih]; ring
    rw [this] at e
    unfold polyWind
    omega
  rcases le_total q.x q'.x with hx | hx
  · exact key q q' hx h
  · exact (key q' q hx fun e he p hp hb => h e he p hp hb.symm).symm

end IOverlay
