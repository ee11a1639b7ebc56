/-
C76: a stroke covers the union of the rectangles of its sections, its outer joins and its caps, up to rounding.
-/
import Verif.StrokePath

namespace IOverlay
open Complex

/-! ### rectangles -/

/-- A rectangle winds around the points of its interior. -/
theorem rect_inside {r : ℝ} {u v z : ℂ} (h : u ≠ v) {x y : ℝ} (hz : z = u + (x * unitTo u v + y * (I * unitTo u v)))
    (x0 : 0 < x) (x1 : x < ‖v - u‖) (y0 : -r < y) (y1 : y < r) : polyWindC (sectionRect r u v) z ≠ 0 := by
  have hd := unitTo_unit h
  have hv := unitTo_reach h
  set d := unitTo u v with hdd
  set L := ‖v - u‖ with hL
  have eh : halfLeft r u v = I * d * r := rfl
  have q0 : u - halfLeft r u v = u + (((0 : ℝ) : ℂ) * d + ((-r : ℝ) : ℂ) * (I * d)) := by rw [eh]; push_cast; ring
  have q1 : v - halfLeft r u v = u + ((L : ℂ) * d + ((-r : ℝ) : ℂ) * (I * d)) := by
    rw [eh]; push_cast; linear_combination hv
  have q2 : v + halfLeft r u v = u + ((L : ℂ) * d + ((r : ℝ) : ℂ) * (I * d)) := by
    rw [eh]; push_cast; linear_combination hv
  have q3 : u + halfLeft r u v = u + (((0 : ℝ) : ℂ) * d + ((r : ℝ) : ℂ) * (I * d)) := by rw [eh]; push_cast; ring
  unfold sectionRect
  rw [windC_four, q0, q1, q2, q3, hz]
  -- an edge that sees the point on its left counts if it crosses the line below the point from left to right
  have edge : ∀ a b c : ℂ, 0 < areaC a b c → edgeWindC a b c = if a.re ≤ c.re ∧ c.re < b.re then 1 else 0 := by
    intro a b c hc
    unfold edgeWindC
    have : areaC b a c = - areaC a b c := by unfold areaC; ring
    by_cases h1 : a.re ≤ c.re ∧ c.re < b.re
    · rw [if_pos ⟨h1.1, h1.2, hc⟩, if_pos h1]
    · rw [if_neg (fun h => h1 ⟨h.1, h.2.1⟩), if_neg (fun h => by linarith [h.2.2, this]), if_neg h1]
  rw [edge _ _ _ (by rw [areaC_frame hd]; nlinarith), edge _ _ _ (by rw [areaC_frame hd]; nlinarith),
    edge _ _ _ (by rw [areaC_frame hd]; nlinarith), edge _ _ _ (by rw [areaC_frame hd]; nlinarith)]
  have re : ∀ x y : ℝ, (u + (x * d + y * (I * d))).re = u.re + x * d.re - y * d.im := by
    intro x y
    simp only [add_re, mul_re, mul_im, ofReal_re, ofReal_im, I_re, I_im]; ring
  simp only [re]
  set a := d.re
  set b := d.im
  have hall : ¬ (u.re + 0 * a - -r * b ≤ u.re + x * a - y * b ∧ u.re + L * a - -r * b ≤ u.re + x * a - y * b ∧
      u.re + L * a - r * b ≤ u.re + x * a - y * b ∧ u.re + 0 * a - r * b ≤ u.re + x * a - y * b) := by
    rintro ⟨c0, c1, c2, c3⟩
    have a1 : a ≤ 0 := by
      by_contra hn
      have := mul_pos (mul_pos (by linarith : 0 < L - x) (by linarith : 0 < r + r)) (not_le.1 hn)
      nlinarith
    have a2 : 0 ≤ a := by
      by_contra hn
      have := mul_pos (mul_pos x0 (by linarith : 0 < r + r)) (neg_pos.2 (not_le.1 hn))
      nlinarith
    have a3 : a = 0 := le_antisymm a1 a2
    rw [a3] at c0 c2 hd
    have b1 : b ≤ 0 := by
      by_contra hn
      have := mul_pos (by linarith : 0 < r + y) (not_le.1 hn)
      nlinarith
    have b2 : 0 ≤ b := by
      by_contra hn
      have := mul_pos (by linarith : 0 < r - y) (neg_pos.2 (not_le.1 hn))
      nlinarith
    have b3 : b = 0 := le_antisymm b1 b2
    rw [b3] at hd
    norm_num at hd
  have hnone : ¬ (¬ u.re + 0 * a - -r * b ≤ u.re + x * a - y * b ∧ ¬ u.re + L * a - -r * b ≤ u.re + x * a - y * b ∧
      ¬ u.re + L * a - r * b ≤ u.re + x * a - y * b ∧ ¬ u.re + 0 * a - r * b ≤ u.re + x * a - y * b) := by
    rintro ⟨c0, c1, c2, c3⟩
    rw [not_le] at c0 c1 c2 c3
    have a1 : 0 ≤ a := by
      by_contra hn
      have := mul_pos (mul_pos (by linarith : 0 < L - x) (by linarith : 0 < r + r)) (neg_pos.2 (not_le.1 hn))
      nlinarith
    have a2 : a ≤ 0 := by
      by_contra hn
      have := mul_pos (mul_pos x0 (by linarith : 0 < r + r)) (not_le.1 hn)
      nlinarith
    have a3 : a = 0 := le_antisymm a2 a1
    rw [a3] at c0 c2
    have b1 : 0 ≤ b := by
      by_contra hn
      have := mul_pos (by linarith : 0 < r + y) (neg_pos.2 (not_le.1 hn))
      nlinarith
    have b2 : b ≤ 0 := by
      by_contra hn
      have := mul_pos (by linarith : 0 < r - y) (not_le.1 hn)
      nlinarith
    have b3 : b = 0 := le_antisymm b2 b1
    rw [b3] at c0
    linarith
  simp only [← not_le]
  by_cases c0 : u.re + 0 * a - -r * b ≤ u.re + x * a - y * b <;> by_cases c1 : u.re + L * a - -r * b ≤ u.re + x * a - y * b <;>
    by_cases c2 : u.re + L * a - r * b ≤ u.re + x * a - y * b <;> by_cases c3 : u.re + 0 * a - r * b ≤ u.re + x * a - y * b <;>
    first
    | (exfalso; apply hall; refine ⟨?_, ?_, ?_, ?_⟩ <;> assumption)
    | (exfalso; apply hnone; refine ⟨?_, ?_, ?_, ?_⟩ <;> assumption)
    | (simp only [c0, c1, c2, c3, not_true_eq_false, not_false_eq_true, and_true, and_false, and_self, if_true, if_false]; norm_num)

/-- A point `t` along and `y` to the left of a section is not surrounded by its rectangle unless it lies in it. -/
theorem rect_outside {r : ℝ} {u v z : ℂ} (h : u ≠ v) {x y : ℝ} (hz : z = u + (x * unitTo u v + y * (I * unitTo u v)))
    (ho : x < 0 ∨ ‖v - u‖ < x ∨ y < -r ∨ r < y) (r0 : 0 ≤ r) : polyWindC (sectionRect r u v) z = 0 := by
  have hd := unitTo_unit h
  have hv := unitTo_reach h
  set d := unitTo u v with hdd
  set L := ‖v - u‖ with hL
  have L0 : 0 ≤ L := norm_nonneg _
  have eh : halfLeft r u v = I * d * r := rfl
  have q0 : u - halfLeft r u v = u + (((0 : ℝ) : ℂ) * d + ((-r : ℝ) : ℂ) * (I * d)) := by rw [eh]; push_cast; ring
  have q1 : v - halfLeft r u v = u + ((L : ℂ) * d + ((-r : ℝ) : ℂ) * (I * d)) := by
    rw [eh]; push_cast; linear_combination hv
  have q2 : v + halfLeft r u v = u + ((L : ℂ) * d + ((r : ℝ) : ℂ) * (I * d)) := by
    rw [eh]; push_cast; linear_combination hv
  have q3 : u + halfLeft r u v = u + (((0 : ℝ) : ℂ) * d + ((r : ℝ) : ℂ) * (I * d)) := by rw [eh]; push_cast; ring
  -- a half plane that contains the rectangle, but not the point
  suffices H : ∃ A B k : ℝ, (∀ x' y' : ℝ, 0 ≤ x' → x' ≤ L → -r ≤ y' → y' ≤ r → A * x' + B * y' ≤ k) ∧ k < A * x + B * y by
    obtain ⟨A, B, k, hin, hout⟩ := H
    have val : ∀ x y : ℝ, (u + (x * d + y * (I * d))).re * (A * d.re - B * d.im) + (u + (x * d + y * (I * d))).im * (A * d.im + B * d.re) =
        A * x + B * y + u.re * (A * d.re - B * d.im) + u.im * (A * d.im + B * d.re) := by
      intro x y
      simp only [add_re, add_im, mul_re, mul_im, ofReal_re, ofReal_im, I_re, I_im]
      linear_combination (A * x + B * y) * hd
    obtain ⟨f, hf⟩ := edgeWindC_convex (convex_halfplane (A * d.re - B * d.im) (A * d.im + B * d.re)
      (k + u.re * (A * d.re - B * d.im) + u.im * (A * d.im + B * d.re))) (z := z) (by
        intro hm
        change z.re * _ + z.im * _ ≤ _ at hm
        rw [hz, val] at hm
        linarith)
    have mem : ∀ x' y' : ℝ, 0 ≤ x' → x' ≤ L → -r ≤ y' → y' ≤ r → u + (x' * d + y' * (I * d)) ∈
        {w : ℂ | w.re * (A * d.re - B * d.im) + w.im * (A * d.im + B * d.re) ≤
          k + u.re * (A * d.re - B * d.im) + u.im * (A * d.im + B * d.re)} := by
      intro x' y' h1 h2 h3 h4
      change (u + (x' * d + y' * (I * d))).re * _ + (u + (x' * d + y' * (I * d))).im * _ ≤ _
      rw [val]
      have := hin x' y' h1 h2 h3 h4
      linarith
    unfold sectionRect
    rw [windC_four, q0, q1, q2, q3]
    have m0 := mem 0 (-r) le_rfl L0 le_rfl (by linarith)
    have m1 := mem L (-r) L0 le_rfl le_rfl (by linarith)
    have m2 := mem L r L0 le_rfl (by linarith) le_rfl
    have m3 := mem 0 r le_rfl L0 (by linarith) le_rfl
    rw [hf _ _ m0 m1, hf _ _ m1 m2, hf _ _ m2 m3, hf _ _ m3 m0]
    ring
  rcases ho with ho | ho | ho | ho
  · exact ⟨-1, 0, 0, fun x' y' h1 _ _ _ => by linarith, by linarith⟩
  · exact ⟨1, 0, L, fun x' y' _ h1 _ _ => by linarith, by linarith⟩
  · exact ⟨0, -1, r, fun x' y' _ _ h1 _ => by linarith, by linarith⟩
  · exact ⟨0, 1, r, fun x' y' _ _ _ h1 => by linarith, by linarith⟩

/-! ### all paths -/

section
variable {toInt : ℂ → Pt} {s : StrokeStyle} {closed : Bool}

theorem strokes_wind {g : ℝ} (hg : 0 < g) {c : ℂ} {ein : ℝ} {q : QPt}
    (hcaps : closed = true ∨ (s.startCap.Standard ∧ s.endCap.Standard)) : ∀ {paths : List (List ℂ)} {ls : List (List (Seg CountOff))},
    List.Forall₂ (fun path l => pathSegments (realOps toInt s.join.normalize.ratio) s.params closed path = some l) paths ls →
    (∀ path ∈ paths, ApartOnGrid toInt closed path) → (∀ path ∈ paths, LongSections s.radius closed path) →
    (∀ path ∈ paths, ∀ u ∈ path, ∀ y, ‖y - u‖ ≤ s.reach closed → GridOk toInt g c ein y) →
    (∀ e ∈ ls.flatten, ∃ path ∈ paths, ∃ a b, StrokeSide toInt s closed path a b ∧ Joins e (toInt a) (toInt b)) ∧
    ((∀ path ∈ paths, ∀ a b, StrokeSide toInt s closed path a b → ¬ NearLine (Real.sqrt 2 * ein / g) (fromGrid g c q) a b) →
      0 ≤ segsWind CountOff.subj ls.flatten q ∧ (segsWind CountOff.subj ls.flatten q ≠ 0 ↔
        ∃ path ∈ paths, ∃ P, StrokePart toInt s closed path P ∧ polyWindC P (fromGrid g c q) ≠ 0)) := by
  intro paths ls h
  induction h with
  | nil =>
    intro _ _ _
    refine ⟨by simp, fun _ => ?_⟩
    simp [segsWind]
  | @cons path l paths ls h1 _ ih =>
    intro hA hL hG
    obtain ⟨i1, i2⟩ := ih (fun p hp => hA p (List.mem_cons_of_mem _ hp)) (fun p hp => hL p (List.mem_cons_of_mem _ hp))
      (fun p hp => hG p (List.mem_cons_of_mem _ hp))
    obtain ⟨p1, p2⟩ := path_wind hg (hA path (by simp)) (hL path (by simp)) hcaps (hG path (by simp)) (q := q) h1
    constructor
    · intro e he
      rw [List.flatten_cons, List.mem_append] at he
      rcases he with he | he
      · exact ⟨path, by simp, p1 e he⟩
      · obtain ⟨p, hp, h⟩ := i1 e he
        exact ⟨p, List.mem_cons_of_mem _ hp, h⟩
    · intro hfar
      obtain ⟨j1, j2⟩ := i2 fun p hp => hfar p (List.mem_cons_of_mem _ hp)
      obtain ⟨k1, k2⟩ := p2 (hfar path (by simp))
      have e : segsWind CountOff.subj (l :: ls).flatten q =
          segsWind CountOff.subj l q + segsWind CountOff.subj ls.flatten q := by
        rw [List.flatten_cons, segsWind_eq_segSum, segSum_append]; rfl
      rw [e]
      refine ⟨by omega, ?_⟩
      rw [show (segsWind CountOff.subj l q + segsWind CountOff.subj ls.flatten q ≠ 0) ↔
        (segsWind CountOff.subj l q ≠ 0 ∨ segsWind CountOff.subj ls.flatten q ≠ 0) by omega, k2, j2]
      simp only [List.exists_mem_cons_iff]

end

/-! ### C76 -/

section
variable {e : StrokeEnv} {k : OffConfig} {x : Externals} {s : StrokeStyle} {closed cw : Bool} {paths : List (List ℂ)}
  {g : ℝ} {c : ℂ} {ein eout : ℝ}

theorem strokeCustom_wide {out : List (List (List ℂ))} (h : strokeCustom e k x s closed cw false paths = some out)
    (hwide : 1 < |(strokeAdapter e s paths).lenToInt (0.5 * s.width)|) : ∃ shapes : List (List (List Pt)),
      out = shapes.map (fun sh => sh.map fun d => d.map (strokeAdapter e s paths).toFloat) ∧
      ((paths = [] ∧ shapes = []) ∨
        ∃ segs, strokeEdges e s closed paths = some segs ∧ offsetShapes k x cw 0 segs = some shapes) := by
  unfold strokeCustom at h
  split at h
  · rename_i hp
    rw [List.isEmpty_iff] at hp
    cases h; exact ⟨[], rfl, Or.inl ⟨hp, rfl⟩⟩
  dsimp only at h
  have hsmall : decide (|(strokeAdapter e s paths).lenToInt (0.5 * s.width)| ≤ 1) = false := by
    rw [decide_eq_false_iff_not]; omega
  unfold strokeAdapter at hsmall
  rw [hsmall, if_neg (by simp)] at h
  obtain ⟨shapes, h1, h2⟩ := Option.map_eq_some_iff.1 h
  refine ⟨shapes, h2.symm, ?_⟩
  rcases stroke_offset _ h1 with ⟨hp | hp, rfl⟩ | h3
  · exact Or.inl ⟨hp, rfl⟩
  · cases hp
  · exact Or.inr h3

open Classical in
/-- C76: a stroke covers exactly the union of its parts (rectangles of the sections, outer joins, caps) up to rounding: a point
farther than the rounding error from all drawn sides is inside the result exactly if it is inside one of the parts. Half the width
must be more than one unit of the grid, consecutive points must not coincide on the grid, and no section may be shorter than half
the width times the sine of the turn at its ends (finding 14 shows why). -/
theorem C76_union (e : StrokeEnv) (k : OffConfig) (x : Externals) (ho : OffAssumed k x) (s : StrokeStyle)
    (closed cw : Bool) (paths : List (List ℂ)) (hR : RegularStroke e k s closed paths) (g : ℝ) (c : ℂ) (ein eout : ℝ)
    (ha : (strokeAdapter e s paths).Good g c ein eout (Reached s closed paths))
    (hwide : 1 < |(strokeAdapter e s paths).lenToInt (0.5 * s.width)|)
    (hcaps : closed = true ∨ (s.startCap.Standard ∧ s.endCap.Standard))
    (hA : ∀ path ∈ paths, ApartOnGrid (strokeAdapter e s paths).toInt closed path)
    (hL : ∀ path ∈ paths, LongSections s.radius closed path) (out : List (List (List ℂ)))
    (h : strokeCustom e k x s closed cw false paths = some out) :
    ∃ shapes : List (List (List Pt)),
      out = shapes.map (fun sh => sh.map fun d => d.map (strokeAdapter e s paths).toFloat) ∧
      ∀ q, (∀ path ∈ paths, ∀ a b, StrokeSide (strokeAdapter e s paths).toInt s closed path a b →
          ¬ NearLine (roundingError k g ein) (fromGrid g c q) a b) →
        polysWind shapes.flatten q = outerTurn cw *
          if ∃ path ∈ paths, ∃ P, StrokePart (strokeAdapter e s paths).toInt s closed path P ∧ polyWindC P (fromGrid g c q) ≠ 0
          then 1 else 0 := by
  obtain ⟨shapes, h1, h2⟩ := strokeCustom_wide h hwide
  refine ⟨shapes, h1, fun q hq => ?_⟩
  rcases h2 with ⟨rfl, rfl⟩ | ⟨segs, hs, h2⟩
  · simp [polysWind]
  obtain ⟨hz, hf⟩ := hR.edges segs hs
  obtain ⟨a1, -, -⟩ := strokeEdges_near hR ha hs
  have hd := allDrawn_stroke _ hs
  have hb := C48_stroke _ _ _ _ _ hs
  obtain ⟨r, h3, h4, -⟩ := drawn_result ho hd hb hz hf h2
  have hl : ∀ s ∈ segs, s.a < s.b := fun s hs => (hd s hs).lt (hz s hs)
  have hok : OffOk segs := ⟨(closed_iff_balanced _ _).2 hb, fun s hs => (hd s hs).nonempty⟩
  have hg := ha.pos
  have hdr : (0 : ℝ) ≤ drift k.sr k.fuel := by exact_mod_cast drift_nonneg k.fuel k.sr
  have hein : ∀ u ∈ paths.flatten, 0 ≤ ein := by
    intro u hu
    by_contra hn
    have h0 : Real.sqrt 2 * ein / g < 0 := div_neg_of_neg_of_pos (mul_neg_of_pos_of_neg (by positivity) (not_le.1 hn)) hg
    have := (norm_nonneg _).trans ((ha.toInt u ⟨u, hu, by simpa using reach_style_nonneg s closed⟩).1.close hg)
    linarith
  have hround : 0 ≤ ein → Real.sqrt 2 * ein / g + Real.sqrt 2 * drift k.sr k.fuel / g ≤ roundingError k g ein := by
    intro hein
    unfold roundingError
    rw [← add_div, ← mul_add]
    gcongr
    linarith
  have hsmall : 0 ≤ ein → Real.sqrt 2 * ein / g ≤ roundingError k g ein := by
    intro hein
    refine le_trans ?_ (hround hein)
    have : 0 ≤ Real.sqrt 2 * drift k.sr k.fuel / g := by positivity
    linarith
  have hs' := hs
  unfold strokeEdges at hs'
  obtain ⟨ls, hls, rfl⟩ := strokeSegments_paths _ hs'
  obtain ⟨w1, w2⟩ := strokes_wind (q := q) hg hcaps hls hA hL
    (fun path hp u hu y hy => (ha.toInt y ⟨u, List.mem_flatten.2 ⟨path, hp, hu⟩, hy⟩).1)
  obtain ⟨w3, w4⟩ := w2 fun path hp a b hab hn => by
    obtain ⟨⟨u, hu, -⟩, -⟩ := side_reach (hA path hp) hcaps hab
    exact hq path hp a b hab (hn.mono (hsmall (hein u (List.mem_flatten.2 ⟨path, hp, hu⟩))))
  rw [h4, (off_drift ho.tree hl hok hf a1 h3).1 q]
  · congr 1
    by_cases hex : ∃ path ∈ paths, ∃ P, StrokePart (strokeAdapter e s paths).toInt s closed path P ∧ polyWindC P (fromGrid g c q) ≠ 0
    · have := w4.2 hex
      rw [if_pos hex, if_pos (by omega)]
    · rw [if_neg hex, if_neg]
      intro hpos
      exact hex (w4.1 (by omega))
  · intro d hdm hw
    obtain ⟨path, hp, a, b, hab, hj⟩ := w1 d hdm
    obtain ⟨m1, m2⟩ := side_reach (hA path hp) hcaps hab
    have h0 : 0 ≤ ein := by
      obtain ⟨u, hu, -⟩ := m1
      exact hein u (List.mem_flatten.2 ⟨path, hp, hu⟩)
    have close : ∀ y, (∃ u ∈ path, ‖y - u‖ ≤ s.reach closed) →
        ‖fromGrid g c ((strokeAdapter e s paths).toInt y).q - y‖ ≤ Real.sqrt 2 * ein / g := by
      rintro y ⟨u, hu, hy⟩
      exact (ha.toInt y ⟨u, List.mem_flatten.2 ⟨path, hp, hu⟩, hy⟩).1.close hg
    have na : NearLine (Real.sqrt 2 * ein / g) (fromGrid g c ((strokeAdapter e s paths).toInt a).q) a b := .left (close a m1)
    have nb : NearLine (Real.sqrt 2 * ein / g) (fromGrid g c ((strokeAdapter e s paths).toInt b).q) a b := .right (close b m2)
    obtain ⟨p, ⟨t, t0, t1, px, py⟩, p1, p2⟩ := hw
    have hp' : NearLine (Real.sqrt 2 * ein / g) (fromGrid g c p) a b := by
      rcases hj with ⟨j1, j2⟩ | ⟨j1, j2⟩
      · exact qconvex_near g c _ a b d.a.q d.b.q p t (by rw [j1]; exact na) (by rw [j2]; exact nb) t0 t1 px py
      · exact qconvex_near g c _ a b d.a.q d.b.q p t (by rw [j1]; exact nb) (by rw [j2]; exact na) t0 t1 px py
    exact hq path hp a b hab ((hp'.moved (fromGrid_close hg c p1 p2)).mono (hround h0))

/-- C76 (sections): the inside of the rectangle of every section is covered: a point `x` along the section and `y` to its left. -/
theorem C76_section (e : StrokeEnv) (k : OffConfig) (x : Externals) (ho : OffAssumed k x) (s : StrokeStyle)
    (closed cw : Bool) (paths : List (List ℂ)) (hR : RegularStroke e k s closed paths) (g : ℝ) (c : ℂ) (ein eout : ℝ)
    (ha : (strokeAdapter e s paths).Good g c ein eout (Reached s closed paths))
    (hwide : 1 < |(strokeAdapter e s paths).lenToInt (0.5 * s.width)|)
    (hcaps : closed = true ∨ (s.startCap.Standard ∧ s.endCap.Standard))
    (hA : ∀ path ∈ paths, ApartOnGrid (strokeAdapter e s paths).toInt closed path)
    (hL : ∀ path ∈ paths, LongSections s.radius closed path) (out : List (List (List ℂ)))
    (h : strokeCustom e k x s closed cw false paths = some out) :
    ∃ shapes : List (List (List Pt)),
      out = shapes.map (fun sh => sh.map fun d => d.map (strokeAdapter e s paths).toFloat) ∧
      ∀ path ∈ paths, ∀ u v, [u, v] <:+: route closed path → ∀ (t y : ℝ) q,
        fromGrid g c q = u + (t * unitTo u v + y * (I * unitTo u v)) → 0 < t → t < ‖v - u‖ → |y| < s.width / 2 →
        (∀ path ∈ paths, ∀ a b, StrokeSide (strokeAdapter e s paths).toInt s closed path a b →
          ¬ NearLine (roundingError k g ein) (fromGrid g c q) a b) →
        polysWind shapes.flatten q = outerTurn cw := by
  obtain ⟨shapes, h1, h2⟩ := C76_union e k x ho s closed cw paths hR g c ein eout ha hwide hcaps hA hL out h
  refine ⟨shapes, h1, fun path hp u v huv t y q hz t0 t1 hy hfar => ?_⟩
  have hr : s.width / 2 ≤ s.radius := by
    unfold StrokeStyle.radius
    have := le_max_left s.width 0
    linarith
  rw [abs_lt] at hy
  rw [h2 q hfar, if_pos, mul_one]
  exact ⟨path, hp, _, .section huv, rect_inside (fun e => hA path hp u v huv (congrArg _ e)) hz t0 t1 (by linarith) (by linarith)⟩

open Classical in
/-- C76 (default): `stroke` without further arguments, for coordinates of more than 32 bits: counterclockwise, no cleaning. -/
theorem C76_default (e : StrokeEnv) (k : OffConfig) (x : Externals) (ho : OffAssumed k x) (s : StrokeStyle)
    (closed : Bool) (bits : Nat) (hbits : 32 < bits) (paths : List (List ℂ)) (hR : RegularStroke e k s closed paths)
    (g : ℝ) (c : ℂ) (ein eout : ℝ) (ha : (strokeAdapter e s paths).Good g c ein eout (Reached s closed paths))
    (hwide : 1 < |(strokeAdapter e s paths).lenToInt (0.5 * s.width)|)
    (hcaps : closed = true ∨ (s.startCap.Standard ∧ s.endCap.Standard))
    (hA : ∀ path ∈ paths, ApartOnGrid (strokeAdapter e s paths).toInt closed path)
    (hL : ∀ path ∈ paths, LongSections s.radius closed path) (out : List (List (List ℂ)))
    (h : strokeDefault e k x s closed bits paths = some out) :
    ∃ shapes : List (List (List Pt)),
      out = shapes.map (fun sh => sh.map fun d => d.map (strokeAdapter e s paths).toFloat) ∧
      ∀ q, (∀ path ∈ paths, ∀ a b, StrokeSide (strokeAdapter e s paths).toInt s closed path a b →
          ¬ NearLine (roundingError k g ein) (fromGrid g c q) a b) →
        polysWind shapes.flatten q =
          if ∃ path ∈ paths, ∃ P, StrokePart (strokeAdapter e s paths).toInt s closed path P ∧ polyWindC P (fromGrid g c q) ≠ 0
          then 1 else 0 := by
  unfold strokeDefault at h
  rw [decide_eq_false (by omega)] at h
  obtain ⟨shapes, h1, h2⟩ := C76_union e k x ho s closed false paths hR g c ein eout ha hwide hcaps hA hL out h
  refine ⟨shapes, h1, fun q hq => ?_⟩
  rw [h2 q hq, show outerTurn false = 1 from rfl, one_mul]

end

end IOverlay
