/-
C72: strokes with the styles of the API stay near their paths.
-/
import Verif.StrokeRun
import Verif.FloatWind

namespace IOverlay
open Complex

/-! ### specification -/

/-- Contract of the adapter (external) on the points given by `inside`: coordinates are scaled by `g` around `c`; rounding
moves them by at most `ein` units and stays in the range of the integer algorithms; points in this range are converted back
with an error of at most `eout`. -/
structure StrokeAdapter.Good (a : StrokeAdapter) (g : ℝ) (c : ℂ) (ein eout : ℝ) (inside : ℂ → Prop) : Prop where
  pos : 0 < g
  toInt : ∀ z, inside z → GridOk a.toInt g c ein z ∧ InRange (a.toInt z)
  toFloat : ∀ p, InRange p → ‖a.toFloat p - fromGrid g c p.q‖ ≤ eout

/-- The points within reach of a point of the paths. -/
def Reached (s : StrokeStyle) (closed : Bool) (paths : List (List ℂ)) (z : ℂ) : Prop :=
  ∃ u ∈ paths.flatten, ‖z - u‖ ≤ s.reach closed

/-- The point lies in the rectangle. -/
def FRect.Has (r : FRect) (z : ℂ) : Prop := r.minX ≤ z.re ∧ z.re ≤ r.maxX ∧ r.minY ≤ z.im ∧ z.im ≤ r.maxY

/-- The adapter of a stroke. -/
noncomputable def strokeAdapter (e : StrokeEnv) (s : StrokeStyle) (paths : List (List ℂ)) : StrokeAdapter :=
  e.adapterOf (strokeRect s paths)

/-- The edges a stroke registers. -/
noncomputable def strokeEdges (e : StrokeEnv) (s : StrokeStyle) (closed : Bool) (paths : List (List ℂ)) :
    Option (List (Seg CountOff)) :=
  (realOps (strokeAdapter e s paths).toInt s.join.normalize.ratio).strokeSegments s.params closed paths

/-- Regular strokes: no registered edge is a point of the grid; the last point of a closed path is not repeated; and the
splitting strategy's condition for large inputs holds (see C20). -/
structure RegularStroke (e : StrokeEnv) (k : OffConfig) (s : StrokeStyle) (closed : Bool) (paths : List (List ℂ)) : Prop where
  edges : ∀ segs, strokeEdges e s closed paths = some segs → (∀ d ∈ segs, d.a ≠ d.b) ∧ FragOk k.st k.sr segs
  seam : closed = true → ∀ path ∈ paths, Seam (strokeAdapter e s paths).toInt path

/-- How far rounding may move a point: conversion to the grid (three times), and noding. -/
noncomputable def roundingError (k : OffConfig) (g ein : ℝ) : ℝ := Real.sqrt 2 * (3 * ein + drift k.sr k.fuel) / g

/-! ### the rectangle of the adapter contains the stroke -/

theorem rectOf_has {l : List ℂ} {r : FRect} (h : rectOf l = some r) : ∀ z ∈ l, r.Has z := by
  cases l with
  | nil => cases h
  | cons p ps =>
    have key : ∀ (ps : List ℂ) (r0 : FRect),
        let r := ps.foldl (fun r p => (⟨min r.minX p.re, max r.maxX p.re, min r.minY p.im, max r.maxY p.im⟩ : FRect)) r0
        r.minX ≤ r0.minX ∧ r0.maxX ≤ r.maxX ∧ r.minY ≤ r0.minY ∧ r0.maxY ≤ r.maxY ∧ ∀ z ∈ ps, r.Has z := by
      intro ps
      induction ps with
      | nil => intro r0; simp
      | cons p ps ih =>
        intro r0
        obtain ⟨h1, h2, h3, h4, h5⟩ := ih ⟨min r0.minX p.re, max r0.maxX p.re, min r0.minY p.im, max r0.maxY p.im⟩
        rw [List.foldl_cons]
        dsimp only at h1 h2 h3 h4 h5 ⊢
        refine ⟨h1.trans (min_le_left _ _), (le_max_left _ _).trans h2, h3.trans (min_le_left _ _),
          (le_max_left _ _).trans h4, fun z hz => ?_⟩
        rcases List.mem_cons.1 hz with rfl | hz
        · exact ⟨h1.trans (min_le_right _ _), (le_max_right _ _).trans h2, h3.trans (min_le_right _ _),
            (le_max_right _ _).trans h4⟩
        · exact h5 z hz
    simp only [rectOf, Option.some.injEq] at h
    obtain ⟨h1, h2, h3, h4, h5⟩ := key ps ⟨p.re, p.re, p.im, p.im⟩
    rw [h] at h1 h2 h3 h4 h5
    intro z hz
    rcases List.mem_cons.1 hz with rfl | hz
    · exact ⟨h1, h2, h3, h4⟩
    · exact h5 z hz

theorem radius_nonneg (s : StrokeStyle) : 0 ≤ s.radius := by
  unfold StrokeStyle.radius
  have := le_max_right s.width 0
  linarith

theorem join_reach_nonneg (s : StrokeStyle) : 0 ≤ s.join.reach s.radius :=
  (radius_nonneg s).trans (join_reach_ge s.join (radius_nonneg s))

theorem reach_style_nonneg (s : StrokeStyle) (closed : Bool) : 0 ≤ s.reach closed := by
  unfold StrokeStyle.reach
  split
  · exact join_reach_nonneg s
  · exact (join_reach_nonneg s).trans (le_max_left _ _)

/-- The caps are not custom ones. -/
def LineCap.Standard : LineCap → Prop
  | .custom _ => False
  | _ => True

theorem rect_width_nonneg {l : List ℂ} {r : FRect} (h : rectOf l = some r) : 0 ≤ (r.maxX - r.minX) + (r.maxY - r.minY) := by
  cases l with
  | nil => cases h
  | cons p ps =>
    obtain ⟨h1, h2, h3, h4⟩ := rectOf_has h p (by simp)
    linarith

theorem capOffset_nonneg (c : CapPoints ℂ) : 0 ≤ capOffset c := by
  unfold capOffset
  split
  · exact le_refl _
  · split
    · exact le_refl _
    · next h => exact rect_width_nonneg h

theorem join_reach_offset (s : StrokeStyle) (b : ℝ) (hb : 0 ≤ b) :
    s.join.reach s.radius ≤ max (s.join.normalize.offset s.radius (0.5 * s.width)) b := by
  have hr := radius_nonneg s
  have flat : s.radius ≤ max (1.1 * (0.5 * s.width)) b := by
    rcases le_total s.width 0 with hw | hw
    · have : s.radius = 0 := by unfold StrokeStyle.radius; rw [max_eq_right hw]; simp
      rw [this]; exact hb.trans (le_max_right _ _)
    · refine le_trans ?_ (le_max_left _ _)
      unfold StrokeStyle.radius
      rw [max_eq_left hw]
      linarith
  cases hj : s.join with
  | bevel => exact flat
  | round a => exact flat
  | miter a =>
    refine le_trans ?_ (le_max_left _ _)
    show s.radius / Real.sin (clampR a (0.01 * Real.pi) (0.99 * Real.pi) / 2) ≤ _
    unfold LineJoin.normalize LineJoin.offset
    dsimp only
    set A := clampR a (0.01 * Real.pi) (0.99 * Real.pi) with hA
    have hpi := Real.two_le_pi
    have h1 : 0.01 * Real.pi ≤ A := le_max_left _ _
    have h2 : A ≤ 0.99 * Real.pi := max_le (by nlinarith) (min_le_right _ _)
    have h3 : max A 0.01 = A := max_eq_left (by nlinarith)
    rw [h3]
    have e : 0.5 * A = A / 2 := by ring
    rw [e]
    have hs : 0 < Real.sin (A / 2) := Real.sin_pos_of_pos_of_lt_pi (by nlinarith) (by nlinarith)
    have hc : 0 < Real.cos (A / 2) := Real.cos_pos_of_mem_Ioo ⟨by nlinarith, by nlinarith⟩
    have e2 : s.radius * s.radius + s.radius / Real.tan (A / 2) * (s.radius / Real.tan (A / 2)) =
        (s.radius / Real.sin (A / 2)) ^ 2 := by
      rw [Real.tan_eq_sin_div_cos]
      have := Real.sin_sq_add_cos_sq (A / 2)
      field_simp
      nlinarith
    rw [e2, Real.sqrt_sq (by positivity)]
    have : 0 ≤ s.radius / Real.sin (A / 2) := by positivity
    linarith

theorem cap_reach_offset (s : StrokeStyle) {c : LineCap} (hc : c.Standard) :
    c.reach s.radius ≤ max s.radius (capOffset (c.normalize.points s.radius)) := by
  cases c with
  | butt => exact le_max_left _ _
  | round a => exact le_max_left _ _
  | custom ps => exact absurd hc id
  | square =>
    refine le_trans ?_ (le_max_right _ _)
    have hr := radius_nonneg s
    have e : capOffset (LineCap.square.normalize.points s.radius) = 2 * s.radius := by
      simp only [LineCap.normalize, LineCap.points, capOffset, rectOf, List.foldl_cons, List.foldl_nil]
      rw [max_self, min_self, max_eq_right (by linarith), min_eq_left (by linarith)]
      ring
    rw [e]
    unfold LineCap.reach
    have : Real.sqrt 2 ≤ 2 := by rw [Real.sqrt_le_left (by norm_num)]; norm_num
    nlinarith

/-- The rectangle given to the adapter contains everything within reach of the paths, for all styles without custom caps. -/
theorem reach_offset (s : StrokeStyle) {closed : Bool}
    (hc : closed = true ∨ (s.startCap.Standard ∧ s.endCap.Standard)) : s.reach closed ≤ s.offset := by
  have h0 := capOffset_nonneg s.params.startCap
  have hj := join_reach_offset s (max (capOffset s.params.startCap) (capOffset s.params.endCap)) (h0.trans (le_max_left _ _))
  unfold StrokeStyle.reach
  rcases hc with rfl | ⟨h1, h2⟩
  · exact hj
  · split
    · exact hj
    · refine max_le hj (max_le ?_ ?_)
      · refine (cap_reach_offset s h1).trans (max_le ((join_reach_ge s.join (radius_nonneg s)).trans hj) ?_)
        exact (le_max_left _ _).trans (le_max_right _ _)
      · refine (cap_reach_offset s h2).trans (max_le ((join_reach_ge s.join (radius_nonneg s)).trans hj) ?_)
        exact (le_max_right _ _).trans (le_max_right _ _)

theorem reached_rect {s : StrokeStyle} {closed : Bool} (hc : closed = true ∨ (s.startCap.Standard ∧ s.endCap.Standard))
    {paths : List (List ℂ)} {z : ℂ} (h : Reached s closed paths z) : (strokeRect s paths).Has z := by
  obtain ⟨u, hu, hz⟩ := h
  have ho := reach_offset s hc
  have h1 := (Complex.abs_re_le_norm (z - u)).trans (hz.trans ho)
  have h2 := (Complex.abs_im_le_norm (z - u)).trans (hz.trans ho)
  rw [Complex.sub_re, abs_le] at h1
  rw [Complex.sub_im, abs_le] at h2
  cases hr : rectOf paths.flatten with
  | none =>
    cases hf : paths.flatten with
    | nil => rw [hf] at hu; cases hu
    | cons p ps => rw [hf] at hr; cases hr
  | some r =>
    obtain ⟨b1, b2, b3, b4⟩ := rectOf_has hr u hu
    unfold strokeRect FRect.Has FRect.addOffset
    rw [hr]
    dsimp only [Option.getD_some]
    refine ⟨by linarith, by linarith, by linarith, by linarith⟩

/-! ### the run -/

section
variable {e : StrokeEnv} {k : OffConfig} {x : Externals} {s : StrokeStyle} {closed cw : Bool} {paths : List (List ℂ)}
  {g : ℝ} {c : ℂ} {ein eout : ℝ}

theorem strokeCustom_int {clean : Bool} {out : List (List (List ℂ))} (h : strokeCustom e k x s closed cw clean paths = some out)
    (hclean : clean = false) : ∃ shapes : List (List (List Pt)),
      out = shapes.map (fun sh => sh.map fun d => d.map (strokeAdapter e s paths).toFloat) ∧
      (shapes = [] ∨ ∃ segs, strokeEdges e s closed paths = some segs ∧ offsetShapes k x cw 0 segs = some shapes) := by
  subst hclean
  unfold strokeCustom at h
  split at h
  · cases h; exact ⟨[], rfl, Or.inl rfl⟩
  dsimp only at h
  split at h
  · rw [← Option.some.inj h]; exact ⟨[], rfl, Or.inl rfl⟩
  · obtain ⟨shapes, h1, h2⟩ := Option.map_eq_some_iff.1 h
    refine ⟨shapes, h2.symm, ?_⟩
    rcases stroke_offset _ h1 with ⟨-, rfl⟩ | h3
    · exact Or.inl rfl
    · exact Or.inr h3

/-- Registered edges stay within reach of the paths and in range. -/
theorem strokeEdges_near (hR : RegularStroke e k s closed paths)
    (ha : (strokeAdapter e s paths).Good g c ein eout (Reached s closed paths)) {segs : List (Seg CountOff)}
    (hs : strokeEdges e s closed paths = some segs) :
    (∀ d ∈ segs, InRange d.a ∧ InRange d.b) ∧
    (∀ d ∈ segs, ∀ (r : ℚ) q, Within r q d.a d.b → ∃ path ∈ paths,
      NearPath (s.reach closed + Real.sqrt 2 * (3 * ein + r) / g) closed path (fromGrid g c q)) ∧
    ∀ q, (∀ path ∈ paths, ¬ NearPath (s.reach closed + Real.sqrt 2 * (3 * ein) / g) closed path (fromGrid g c q)) →
      segsWind CountOff.subj segs q = 0 := by
  have hG : GridNear (strokeAdapter e s paths).toInt g c ein (s.reach closed) paths.flatten :=
    fun u hu z hz => ha.toInt z ⟨u, hu, hz⟩
  obtain ⟨css, h1, h2, h3⟩ := C51_stroke _ _ _ _ _ hs
  have hn := strokes_near ha.pos (reach_style_nonneg s closed) hR.seam hG h1
  have e3 : 3 * (Real.sqrt 2 * ein / g) = Real.sqrt 2 * (3 * ein) / g := by ring
  have hd : ∀ d ∈ segs, ∃ path ∈ paths, ∃ u v, PathEdge closed path u v ∧ ∀ p, p = d.a ∨ p = d.b →
      InRange p ∧ NearLine (s.reach closed + 3 * (Real.sqrt 2 * ein / g)) (fromGrid g c p.q) u v := by
    intro d hd
    obtain ⟨w, hw, hj⟩ := h3 d hd
    obtain ⟨cs, hcs, hw⟩ := List.mem_flatMap.1 hw
    obtain ⟨m1, m2⟩ := polyEdges_mem hw
    obtain ⟨path, hp, u, v, h4, h5⟩ := hn cs hcs
    refine ⟨path, hp, u, v, h4, ?_⟩
    rcases hj with ⟨j1, j2⟩ | ⟨j1, j2⟩ <;> rintro p (rfl | rfl)
    · rw [j1]; exact h5 _ m1
    · rw [j2]; exact h5 _ m2
    · rw [j1]; exact h5 _ m2
    · rw [j2]; exact h5 _ m1
  refine ⟨fun d hdm => ?_, ?_, ?_⟩
  · obtain ⟨_, _, _, _, _, h⟩ := hd d hdm
    exact ⟨(h _ (Or.inl rfl)).1, (h _ (Or.inr rfl)).1⟩
  · intro d hdm r q hq
    obtain ⟨path, hp, u, v, h4, h5⟩ := hd d hdm
    refine ⟨path, hp, u, v, h4, ?_⟩
    obtain ⟨p, ⟨t, t0, t1, px, py⟩, p1, p2⟩ := hq
    have hp' : NearLine (s.reach closed + 3 * (Real.sqrt 2 * ein / g)) (fromGrid g c p) u v :=
      qconvex_near g c _ u v d.a.q d.b.q p t (h5 _ (Or.inl rfl)).2 (h5 _ (Or.inr rfl)).2 t0 t1 px py
    refine (hp'.moved (fromGrid_close ha.pos c p1 p2)).mono (le_of_eq ?_)
    ring
  · intro q hq
    rw [h2]
    unfold polysWind
    refine List.sum_eq_zero fun w hw => ?_
    obtain ⟨d, hdm, rfl⟩ := List.mem_map.1 hw
    obtain ⟨path, hp, u, v, h4, h5⟩ := hn d hdm
    refine polyWind_convex (qconvex_near g c _ u v) ?_ fun p hp => (h5 p hp).2
    intro hnear
    rw [e3] at hnear
    exact hq path hp ⟨u, v, h4, hnear⟩

end

/-! ### C72 -/

/-- C72 (region): a stroke does not cover points farther from the paths than its style reaches, up to rounding: the result,
converted from contours with integer coordinates, does not wind around them (`q`: grid coordinates). -/
theorem C72_stroke_far (e : StrokeEnv) (k : OffConfig) (x : Externals) (ho : OffAssumed k x) (s : StrokeStyle)
    (closed cw : Bool) (paths : List (List ℂ)) (hR : RegularStroke e k s closed paths) (g : ℝ) (c : ℂ) (ein eout : ℝ)
    (ha : (strokeAdapter e s paths).Good g c ein eout (Reached s closed paths)) (out : List (List (List ℂ)))
    (h : strokeCustom e k x s closed cw false paths = some out) :
    ∃ shapes : List (List (List Pt)),
      out = shapes.map (fun sh => sh.map fun d => d.map (strokeAdapter e s paths).toFloat) ∧
      ∀ q, (∀ path ∈ paths, ¬ NearPath (s.reach closed + roundingError k g ein) closed path (fromGrid g c q)) →
        polysWind shapes.flatten q = 0 := by
  obtain ⟨shapes, h1, h2⟩ := strokeCustom_int h rfl
  refine ⟨shapes, h1, fun q hq => ?_⟩
  rcases h2 with rfl | ⟨segs, hs, h2⟩
  · rfl
  obtain ⟨hz, hf⟩ := hR.edges segs hs
  obtain ⟨a1, a2, a3⟩ := strokeEdges_near hR ha hs
  have hd := allDrawn_stroke _ hs
  have hb := C48_stroke _ _ _ _ _ hs
  obtain ⟨r, h3, h4, -⟩ := drawn_result ho hd hb hz hf h2
  have hl : ∀ s ∈ segs, s.a < s.b := fun s hs => (hd s hs).lt (hz s hs)
  have hok : OffOk segs := ⟨(closed_iff_balanced _ _).2 hb, fun s hs => (hd s hs).nonempty⟩
  rw [h4, (off_drift ho.tree hl hok hf a1 h3).1 q, a3 q]
  · simp
  · rintro path hp ⟨u, v, h5, h6⟩
    refine hq path hp ⟨u, v, h5, h6.mono ?_⟩
    unfold roundingError
    have hg := ha.pos
    have : (0 : ℝ) ≤ drift k.sr k.fuel := by exact_mod_cast drift_nonneg k.fuel k.sr
    gcongr
    linarith
  · intro d hdm hw
    obtain ⟨path, hp, hn⟩ := a2 d hdm _ q hw
    exact hq path hp hn

/-- C72 (boundary): every point of every edge returned by a stroke is within the reach of the style of one of the paths, up to
rounding. -/
theorem C72_stroke_edges (e : StrokeEnv) (k : OffConfig) (x : Externals) (ho : OffAssumed k x) (hcl : CleanEdges x.clean)
    (s : StrokeStyle) (closed cw : Bool) (paths : List (List ℂ)) (hR : RegularStroke e k s closed paths) (g : ℝ) (c : ℂ)
    (ein eout : ℝ) (ha : (strokeAdapter e s paths).Good g c ein eout (Reached s closed paths)) (out : List (List (List ℂ)))
    (h : strokeCustom e k x s closed cw false paths = some out) :
    ∀ d ∈ out.flatten, ∀ w ∈ cycleEdges d, ∀ z ∈ segment ℝ w.1 w.2,
      ∃ path ∈ paths, NearPath (s.reach closed + roundingError k g ein + eout) closed path z := by
  obtain ⟨shapes, rfl, h2⟩ := strokeCustom_int h rfl
  rcases h2 with rfl | ⟨segs, hs, h2⟩
  · simp
  obtain ⟨hz, hf⟩ := hR.edges segs hs
  obtain ⟨a1, a2, -⟩ := strokeEdges_near hR ha hs
  have hd := allDrawn_stroke _ hs
  have hb := C48_stroke _ _ _ _ _ hs
  have hnear := drawn_near ho hcl hd hb hz hf a1 h2
  have hrange := drawn_range ho hcl hd hb hz hf a1 h2
  intro d' hd' w' hw' z hz
  have e1 : (shapes.map fun sh => sh.map fun d => d.map (strokeAdapter e s paths).toFloat).flatten =
      shapes.flatten.map fun d => d.map (strokeAdapter e s paths).toFloat := by
    rw [List.map_flatten]
  rw [e1] at hd'
  obtain ⟨d, hdm, rfl⟩ := List.mem_map.1 hd'
  rw [cycleEdges_map] at hw'
  obtain ⟨w, hw, rfl⟩ := List.mem_map.1 hw'
  rw [← polyEdges_cycle] at hw
  obtain ⟨m1, m2⟩ := polyEdges_mem hw
  -- the converted ends
  have f1 := ha.toFloat _ (hrange d hdm _ m1)
  have f2 := ha.toFloat _ (hrange d hdm _ m2)
  obtain ⟨α, β, α0, β0, αβ, rfl⟩ := hz
  dsimp only at *
  -- the corresponding point between the integer ends
  have hK := isClosed_nearPaths (s.reach closed + roundingError k g ein) closed paths
  set F : ℝ → ℂ := fun t => (1 - t) • fromGrid g c w.1.q + t • fromGrid g c w.2.q with hF
  have hcont : Continuous F := by fun_prop
  have hrat : ∀ t : ℚ, 0 ≤ t → t ≤ 1 → F t ∈ {z | ∃ path ∈ paths, NearPath (s.reach closed + roundingError k g ein) closed path z} := by
    intro t t0 t1
    obtain ⟨E, hE, hw'⟩ := hnear d hdm w hw ⟨w.1.x + t * (w.2.x - w.1.x), w.1.y + t * (w.2.y - w.1.y)⟩ ⟨t, t0, t1, rfl, rfl⟩
    obtain ⟨path, hp, hn⟩ := a2 E hE _ _ hw'
    refine ⟨path, hp, ?_⟩
    have e4 : F t = fromGrid g c ⟨w.1.x + t * (w.2.x - w.1.x), w.1.y + t * (w.2.y - w.1.y)⟩ := by
      simp only [hF, fromGrid, Pt.q, Complex.real_smul]
      have hg : (g : ℂ) ≠ 0 := by exact_mod_cast ha.pos.ne'
      field_simp
      apply Complex.ext
      · simp; ring
      · simp; ring
    rw [e4]
    exact hn
  have hpre : IsClosed (F ⁻¹' {z | ∃ path ∈ paths, NearPath (s.reach closed + roundingError k g ein) closed path z}) :=
    hK.preimage hcont
  have hall : ∀ t ∈ Set.Icc (0 : ℝ) 1, F t ∈ {z | ∃ path ∈ paths, NearPath (s.reach closed + roundingError k g ein) closed path z} := by
    have hsub : Set.Ioo (0 : ℝ) 1 ⊆ F ⁻¹' {z | ∃ path ∈ paths, NearPath (s.reach closed + roundingError k g ein) closed path z} := by
      have hdense : Dense (Set.range ((↑) : ℚ → ℝ)) := Rat.denseRange_cast
      refine (hdense.open_subset_closure_inter isOpen_Ioo).trans ?_
      refine hpre.closure_subset_iff.2 ?_
      rintro _ ⟨⟨t0, t1⟩, t, rfl⟩
      exact hrat t (by exact_mod_cast t0.le) (by exact_mod_cast t1.le)
    intro t ht
    rw [← closure_Ioo (zero_ne_one)] at ht
    exact hpre.closure_subset_iff.2 hsub ht
  obtain ⟨path, hp, hn⟩ := hall β ⟨β0, by linarith⟩
  refine ⟨path, hp, hn.moved ?_⟩
  have e2 : α = 1 - β := by linarith
  simp only [hF]
  rw [e2]
  have e3 : (1 - β) • (strokeAdapter e s paths).toFloat w.1 + β • (strokeAdapter e s paths).toFloat w.2 -
      ((1 - β) • fromGrid g c w.1.q + β • fromGrid g c w.2.q) =
      (1 - β) • ((strokeAdapter e s paths).toFloat w.1 - fromGrid g c w.1.q) +
      β • ((strokeAdapter e s paths).toFloat w.2 - fromGrid g c w.2.q) := by module
  rw [e3]
  refine (norm_add_le _ _).trans ?_
  rw [norm_smul, norm_smul, Real.norm_of_nonneg (by linarith : (0 : ℝ) ≤ 1 - β), Real.norm_of_nonneg β0]
  have g1 := mul_le_mul_of_nonneg_left f1 (by linarith : (0 : ℝ) ≤ 1 - β)
  have g2 := mul_le_mul_of_nonneg_left f2 β0
  have : (1 - β) * eout + β * eout = eout := by ring
  linarith

/-- C72: without custom caps (or for closed paths), the adapter is only needed on the rectangle it was made for. -/
theorem C72_rectangle (s : StrokeStyle) (closed : Bool) (hc : closed = true ∨ (s.startCap.Standard ∧ s.endCap.Standard))
    (paths : List (List ℂ)) (a : StrokeAdapter) (g : ℝ) (c : ℂ) (ein eout : ℝ)
    (h : a.Good g c ein eout (strokeRect s paths).Has) : a.Good g c ein eout (Reached s closed paths) :=
  ⟨h.pos, fun z hz => h.toInt z (reached_rect hc hz), h.toFloat⟩

end IOverlay
