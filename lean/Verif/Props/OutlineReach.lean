/-
C74: outlines with the styles of the API follow their paths.
-/
import Verif.OutlineReach
import Verif.Props.Stroke
import Verif.Props.Drift

namespace IOverlay
open Complex

/-! ### specification -/

/-- How far an outline may reach from a path of the given area: the outer offset for counterclockwise paths (negative area),
the inner one for holes, times the factor of the joins (`LineJoin.reach`). -/
noncomputable def OutlineStyle.pathReach (s : OutlineStyle) (area : Int) : ℝ :=
  s.join.reach |if area < 0 then s.outerOffset else s.innerOffset|

/-- The area of a path as seen by the call. -/
noncomputable def outlineArea (e : OutlineEnv) (s : OutlineStyle) (paths : List (List ℂ)) (path : List ℂ) : Int :=
  e.area (outlineAdapter e s paths) path

/-- The points within reach of a point of the paths. -/
def OutlineReached (e : OutlineEnv) (s : OutlineStyle) (paths : List (List ℂ)) (z : ℂ) : Prop :=
  ∃ path ∈ paths, ∃ u ∈ path, ‖z - u‖ ≤ s.pathReach (outlineArea e s paths path)

/-- The path converted to the grid. -/
noncomputable def gridPath (e : OutlineEnv) (s : OutlineStyle) (paths : List (List ℂ)) (path : List ℂ) : List Pt :=
  path.map (outlineAdapter e s paths).toInt

/-- The edges an outline registers for one of its paths. -/
noncomputable def outlineEdges (e : OutlineEnv) (s : OutlineStyle) (paths : List (List ℂ)) (path : List ℂ) :
    List (Seg CountOff) :=
  (realOps (outlineAdapter e s paths).toInt s.join.normalize.ratio).pathEdges s.params (outlineArea e s paths path) path

/-- Regular paths of an outline: no registered edge is a point of the grid; the last point (for holes: the first) is not
repeated; the splitting strategy's condition for large inputs holds (see C20). -/
structure RegularPath (e : OutlineEnv) (k : OffConfig) (s : OutlineStyle) (paths : List (List ℂ)) (path : List ℂ) : Prop where
  edges : ∀ d ∈ outlineEdges e s paths path, d.a ≠ d.b
  frag : FragOk k.st k.sr (outlineEdges e s paths path)
  seam : Seam (outlineAdapter e s paths).toInt (alongPath (outlineArea e s paths path) path)

/-- The paths that are not ignored. -/
def Counted (e : OutlineEnv) (s : OutlineStyle) (paths : List (List ℂ)) (path : List ℂ) : Prop :=
  path ∈ paths ∧ 1 < (outlineArea e s paths path).natAbs

/-! ### sets of points -/

theorem onSeg_range {a b p : Pt} (h1 : InRange a) (h2 : InRange b) (h : onSeg p.q a b) : InRange p := by
  obtain ⟨τ, t0, t1, e1, e2⟩ := h
  have key : ∀ a b v : Int, -2 ^ 30 < a → a < 2 ^ 30 → -2 ^ 30 < b → b < 2 ^ 30 → (v : ℚ) = a + τ * (b - a) →
      -2 ^ 30 < v ∧ v < 2 ^ 30 := by
    intro a b v h1 h2 h3 h4 h
    have h1' : (-2 ^ 30 : ℚ) < a := by exact_mod_cast h1
    have h2' : (a : ℚ) < 2 ^ 30 := by exact_mod_cast h2
    have h3' : (-2 ^ 30 : ℚ) < b := by exact_mod_cast h3
    have h4' : (b : ℚ) < 2 ^ 30 := by exact_mod_cast h4
    have r1 : (-2 ^ 30 : ℚ) < v := by
      rcases le_total (a : ℚ) b with h5 | h5 <;> rw [h] <;> nlinarith
    have r2 : (v : ℚ) < 2 ^ 30 := by
      rcases le_total (a : ℚ) b with h5 | h5 <;> rw [h] <;> nlinarith
    exact ⟨by exact_mod_cast r1, by exact_mod_cast r2⟩
  unfold InRange at h1 h2 ⊢
  have k1 := key a.x b.x p.x (by omega) (by omega) (by omega) (by omega) e1
  have k2 := key a.y b.y p.y (by omega) (by omega) (by omega) (by omega) e2
  omega

/-- The edge between two converted points is within `eout` of a closed set containing the edge on the grid. -/
theorem converted_near {g : ℝ} (hg : 0 < g) {c : ℂ} {eout : ℝ} {S : Set ℂ} (hS : IsClosed S) {a b : Pt} {a' b' : ℂ}
    (h : ∀ q, onSeg q a b → fromGrid g c q ∈ S) (ha : ‖a' - fromGrid g c a.q‖ ≤ eout) (hb : ‖b' - fromGrid g c b.q‖ ≤ eout)
    {z : ℂ} (hz : z ∈ segment ℝ a' b') : ∃ z' ∈ S, ‖z - z'‖ ≤ eout := by
  obtain ⟨α, β, α0, β0, αβ, rfl⟩ := hz
  set F : ℝ → ℂ := fun t => (1 - t) • fromGrid g c a.q + t • fromGrid g c b.q with hF
  have hcont : Continuous F := by fun_prop
  have hrat : ∀ t : ℚ, 0 ≤ t → t ≤ 1 → F t ∈ S := by
    intro t t0 t1
    have hw := h ⟨a.x + t * (b.x - a.x), a.y + t * (b.y - a.y)⟩ ⟨t, t0, t1, rfl, rfl⟩
    have e4 : F t = fromGrid g c ⟨a.x + t * (b.x - a.x), a.y + t * (b.y - a.y)⟩ := by
      simp only [hF, fromGrid, Pt.q, Complex.real_smul]
      have hg : (g : ℂ) ≠ 0 := by exact_mod_cast hg.ne'
      field_simp
      apply Complex.ext
      · simp; ring
      · simp; ring
    rw [e4]
    exact hw
  have hpre : IsClosed (F ⁻¹' S) := hS.preimage hcont
  have hall : ∀ t ∈ Set.Icc (0 : ℝ) 1, F t ∈ S := by
    have hsub : Set.Ioo (0 : ℝ) 1 ⊆ F ⁻¹' S := by
      have hdense : Dense (Set.range ((↑) : ℚ → ℝ)) := Rat.denseRange_cast
      refine (hdense.open_subset_closure_inter isOpen_Ioo).trans ?_
      refine hpre.closure_subset_iff.2 ?_
      rintro _ ⟨⟨t0, t1⟩, t, rfl⟩
      exact hrat t (by exact_mod_cast t0.le) (by exact_mod_cast t1.le)
    intro t ht
    rw [← closure_Ioo (zero_ne_one)] at ht
    exact hpre.closure_subset_iff.2 hsub ht
  refine ⟨F β, hall β ⟨β0, by linarith⟩, ?_⟩
  have e2 : α = 1 - β := by linarith
  simp only [hF]
  rw [e2]
  have e3 : (1 - β) • a' + β • b' - ((1 - β) • fromGrid g c a.q + β • fromGrid g c b.q) =
      (1 - β) • (a' - fromGrid g c a.q) + β • (b' - fromGrid g c b.q) := by module
  rw [e3]
  refine (norm_add_le _ _).trans ?_
  rw [norm_smul, norm_smul, Real.norm_of_nonneg (by linarith : (0 : ℝ) ≤ 1 - β), Real.norm_of_nonneg β0]
  have g1 := mul_le_mul_of_nonneg_left ha (by linarith : (0 : ℝ) ≤ 1 - β)
  have g2 := mul_le_mul_of_nonneg_left hb β0
  have : (1 - β) * eout + β * eout = eout := by ring
  linarith

theorem NearLine.symm {d : ℝ} {z u v : ℂ} (h : NearLine d z u v) : NearLine d z v u := by
  obtain ⟨w, h1, h2⟩ := h
  exact ⟨w, by rw [segment_symm]; exact h1, h2⟩

theorem PathEdge.reverse {path : List ℂ} {u v : ℂ} (h : PathEdge true path.reverse u v) : PathEdge true path v u := by
  rcases h with h | ⟨-, h1, h2⟩
  · left
    rw [← List.reverse_infix] at h
    simpa using h
  · right
    rw [List.getLast?_reverse] at h1
    rw [List.head?_reverse] at h2
    exact ⟨rfl, h2, h1⟩

theorem NearPath.of_along {d : ℝ} {a : Int} {path : List ℂ} {z : ℂ} (h : NearPath d true (alongPath a path) z) :
    NearPath d true path z := by
  unfold alongPath at h
  split at h
  · exact h
  · obtain ⟨u, v, h1, h2⟩ := h
    exact ⟨v, u, h1.reverse, h2.symm⟩

theorem NearPath.mono {d d' : ℝ} {closed : Bool} {path : List ℂ} {z : ℂ} (h : NearPath d closed path z) (hd : d ≤ d') :
    NearPath d' closed path z := by
  obtain ⟨u, v, h1, h2⟩ := h
  exact ⟨u, v, h1, h2.mono hd⟩

/-! ### traced edges -/

theorem cleanEdges_bold {g : Graph} {clean : List Pt → List Pt × Bool} (h : CleanEdges clean) : CleanEdges (boldClean g clean) := by
  intro c hc e he
  unfold boldClean at he
  split at he
  · exact h c hc e he
  · simp [polyEdges] at he

/-- Every edge returned for traced edges stays within `drift` of them; all vertices are in range and neighbours differ. -/
theorem traced_near {k : OffConfig} {x : Externals} (ha : OffAssumed k x) (hcl : CleanEdges x.clean) {cw : Bool} {minArea : Nat}
    {segs : List (Seg CountOff)} (ht : AllTraced segs) (hb : Balanced CountOff.subj segs) (hz : ∀ e ∈ segs, e.a ≠ e.b)
    (hf : FragOk k.st k.sr segs) (hin : ∀ s ∈ segs, InRange s.a ∧ InRange s.b) {shapes : List (List (List Pt))}
    (h : offsetShapes k x cw minArea segs = some shapes) :
    ∀ c ∈ shapes.flatten, ∀ d ∈ polyEdges c, d.1 ≠ d.2 ∧ InRange d.1 ∧ InRange d.2 ∧
      ∀ q, onSeg q d.1 d.2 → ∃ e ∈ segs, Within (drift k.sr k.fuel) q e.a e.b := by
  have hl : ∀ s ∈ segs, s.a < s.b := fun s hs => (ht s hs).lt (hz s hs)
  have hok : OffOk segs := ⟨(closed_iff_balanced _ _).2 hb, fun s hs => (ht s hs).nonempty⟩
  obtain ⟨r, g, V, h1, -, -, -, h5, h6, h7, h8⟩ := offset_run ha.tree ha.scan ha.sortE hl hok hf h
  have hx := h8 _ (boldOnly_boldClean h6 h7 x.clean)
  have e := (off_drift ha.tree hl hok hf hin h1).2
  have hr : ∀ s ∈ r, InRange s.a ∧ InRange s.b := by
    unfold nodedEdges at h1
    split at h1
    · rw [← Option.some.inj h1]; simp
    · exact (splitSegments_box k.st k.sr k.tree ha.tree rangeBox k.fuel _ r hl (fun s hs =>
        ⟨⟨(rangeBox_has _).2 (hin s hs).1, (hin s hs).1⟩, (rangeBox_has _).2 (hin s hs).2, (hin s hs).2⟩) h1).range
  intro c hcm d hd
  have hal := h5.along cw (x := { x with clean := boldClean g x.clean }) (cleanEdges_bold hcl) hx c hcm d hd
  have hon : ∀ q, onSeg q d.1 d.2 → ∃ t ∈ r, onSeg q t.a t.b := by
    intro q hq
    obtain ⟨u, hu, hon⟩ := hal.2.on hq
    obtain ⟨s, hs, rfl⟩ := List.mem_map.1 hu
    obtain ⟨t, ht, rfl⟩ := List.mem_map.1 hs
    exact ⟨t, ht, hon⟩
  refine ⟨hal.1, ?_, ?_, fun q hq => ?_⟩
  · obtain ⟨t, ht, hon⟩ := hon d.1.q ⟨0, le_refl _, by norm_num, by unfold atParam Pt.q; simp⟩
    exact onSeg_range (hr t ht).1 (hr t ht).2 hon
  · obtain ⟨t, ht, hon⟩ := hon d.2.q ⟨1, by norm_num, le_refl _, by unfold atParam Pt.q; simp⟩
    exact onSeg_range (hr t ht).1 (hr t ht).2 hon
  · obtain ⟨t, ht, hon⟩ := hon q hq
    exact e t ht q hon

/-! ### the registered edges -/

section
variable {e : OutlineEnv} {k : OffConfig} {kb : Config} {x : Externals} {s : OutlineStyle} {cw : Bool} {minArea : ℝ}
  {paths : List (List ℂ)} {path : List ℂ} {g : ℝ} {c : ℂ} {ein eout : ℝ}

theorem params_radius (s : OutlineStyle) (a : Int) : |s.params.radius a| = |if a < 0 then s.outerOffset else s.innerOffset| := by
  unfold OutlineParams.radius OutlineStyle.params
  split <;> simp

theorem params_join (s : OutlineStyle) (a : Int) : s.params.joinFor a = s.join.normalize.oBuild (s.params.radius a) := by
  unfold OutlineParams.radius OutlineParams.joinFor OutlineStyle.params
  split <;> rfl

/-- The winding number of a path that counts: holes are taken in reverse. -/
noncomputable def orientedWind (a : Int) (c : List Pt) (q : QPt) : Int := (if a < 0 then 1 else -1) * polyWind c q

theorem orientedWind_along (f : ℂ → Pt) (a : Int) (path : List ℂ) (q : QPt) :
    polyWind ((alongPath a path).map f) q = orientedWind a (path.map f) q := by
  unfold alongPath orientedWind
  split
  · simp
  · rw [List.map_reverse, polyWind_reverse]; ring

theorem outlineEdges_near (hp : path ∈ paths) (hR : RegularPath e k s paths path)
    (ha : (outlineAdapter e s paths).Good g c ein eout (OutlineReached e s paths)) :
    (∀ d ∈ outlineEdges e s paths path, InRange d.a ∧ InRange d.b) ∧
    (∀ d ∈ outlineEdges e s paths path, ∀ (r : ℚ) q, Within r q d.a d.b →
      NearPath (s.pathReach (outlineArea e s paths path) + Real.sqrt 2 * (3 * ein + r) / g) true path (fromGrid g c q)) ∧
    ∀ q, ¬ NearPath (s.pathReach (outlineArea e s paths path) + Real.sqrt 2 * (3 * ein) / g) true path (fromGrid g c q) →
      segsWind CountOff.subj (outlineEdges e s paths path) q =
        orientedWind (outlineArea e s paths path) (gridPath e s paths path) q := by
  have hreach : s.join.reach |s.params.radius (outlineArea e s paths path)| = s.pathReach (outlineArea e s paths path) := by
    rw [params_radius]; rfl
  have hG : GridNear (outlineAdapter e s paths).toInt g c ein (s.join.reach |s.params.radius (outlineArea e s paths path)|)
      (alongPath (outlineArea e s paths path) path) := by
    intro u hu z hz
    rw [hreach] at hz
    refine ha.toInt z ⟨path, hp, u, ?_, hz⟩
    unfold alongPath at hu
    split at hu
    · exact hu
    · exact List.mem_reverse.1 hu
  obtain ⟨cs, h1, h2, h3⟩ := C51_outline (realOps (outlineAdapter e s paths).toInt s.join.normalize.ratio)
    (s.params.radius (outlineArea e s paths path)) (s.params.joinFor (outlineArea e s paths path))
    (alongPath (outlineArea e s paths path) path)
  rw [params_join] at h1
  obtain ⟨n1, n2⟩ := outlinePieces_near ha.pos hR.seam hG h1
  rw [hreach] at n1 n2
  have e3 : 3 * (Real.sqrt 2 * ein / g) = Real.sqrt 2 * (3 * ein) / g := by ring
  have hd : ∀ d ∈ outlineEdges e s paths path, ∃ u v, PathEdge true (alongPath (outlineArea e s paths path) path) u v ∧
      ∀ p, p = d.a ∨ p = d.b → InRange p ∧
        NearLine (s.pathReach (outlineArea e s paths path) + 3 * (Real.sqrt 2 * ein / g)) (fromGrid g c p.q) u v := by
    intro d hd
    obtain ⟨w, hw, hj⟩ := h3 d hd
    obtain ⟨u, v, h4, h5⟩ := n1 w hw
    refine ⟨u, v, h4, ?_⟩
    rcases hj with ⟨j1, j2⟩ | ⟨j1, j2⟩ <;> rintro p (rfl | rfl)
    · rw [j1]; exact h5 _ (Or.inl rfl)
    · rw [j2]; exact h5 _ (Or.inr rfl)
    · rw [j1]; exact h5 _ (Or.inr rfl)
    · rw [j2]; exact h5 _ (Or.inl rfl)
  refine ⟨fun d hdm => ?_, ?_, ?_⟩
  · obtain ⟨_, _, _, h⟩ := hd d hdm
    exact ⟨(h _ (Or.inl rfl)).1, (h _ (Or.inr rfl)).1⟩
  · intro d hdm r q hq
    obtain ⟨u, v, h4, h5⟩ := hd d hdm
    refine NearPath.of_along ⟨u, v, h4, ?_⟩
    obtain ⟨p, ⟨t, t0, t1, px, py⟩, p1, p2⟩ := hq
    have hp' : NearLine (s.pathReach (outlineArea e s paths path) + 3 * (Real.sqrt 2 * ein / g)) (fromGrid g c p) u v :=
      qconvex_near g c _ u v d.a.q d.b.q p t (h5 _ (Or.inl rfl)).2 (h5 _ (Or.inr rfl)).2 t0 t1 px py
    refine (hp'.moved (fromGrid_close ha.pos c p1 p2)).mono (le_of_eq ?_)
    ring
  · intro q hq
    rw [← e3] at hq
    have := h2 q
    unfold outlineEdges FloatOps.pathEdges
    rw [this, n2 q fun hn => hq hn.of_along, orientedWind_along]
    rfl

/-- The noded edges of a path wind around far points as the path. -/
theorem outlineNoded_far (ho : OffAssumed k x) (hp : path ∈ paths) (hR : RegularPath e k s paths path)
    (ha : (outlineAdapter e s paths).Good g c ein eout (OutlineReached e s paths)) {r : List (Seg CountOff)}
    (hr : nodedEdges k.st k.sr k.tree k.fuel (outlineEdges e s paths path) = some r) (q : QPt)
    (hq : ¬ NearPath (s.pathReach (outlineArea e s paths path) + roundingError k g ein) true path (fromGrid g c q)) :
    segsWind CountOff.subj r q = orientedWind (outlineArea e s paths path) (gridPath e s paths path) q := by
  obtain ⟨a1, a2, a3⟩ := outlineEdges_near hp hR ha
  have ht := allTraced_outline (realOps (outlineAdapter e s paths).toInt s.join.normalize.ratio)
    (s.params.radius (outlineArea e s paths path)) (s.params.joinFor (outlineArea e s paths path))
    (alongPath (outlineArea e s paths path) path)
  have hb := C48_outline (realOps (outlineAdapter e s paths).toInt s.join.normalize.ratio)
    (s.params.radius (outlineArea e s paths path)) (s.params.joinFor (outlineArea e s paths path))
    (alongPath (outlineArea e s paths path) path)
  have hl : ∀ d ∈ outlineEdges e s paths path, d.a < d.b := fun d hd => (ht d hd).lt (hR.edges d hd)
  have hok : OffOk (outlineEdges e s paths path) := ⟨(closed_iff_balanced _ _).2 hb, fun d hd => (ht d hd).nonempty⟩
  rw [(off_drift ho.tree hl hok hR.frag a1 hr).1 q, a3 q]
  · intro hn
    refine hq (hn.mono ?_)
    unfold roundingError
    have hg := ha.pos
    have : (0 : ℝ) ≤ drift k.sr k.fuel := by exact_mod_cast drift_nonneg k.fuel k.sr
    gcongr
    linarith
  · intro d hdm hw
    exact hq (a2 d hdm _ q hw)

/-- The shapes made for a path stay near it. -/
theorem outlineShapes_near (ho : OffAssumed k x) (hcl : CleanEdges x.clean) (hp : path ∈ paths)
    (hR : RegularPath e k s paths path)
    (ha : (outlineAdapter e s paths).Good g c ein eout (OutlineReached e s paths)) {cw : Bool} {minArea : Nat}
    {shapes : List (List (List Pt))} (h : offsetShapes k x cw minArea (outlineEdges e s paths path) = some shapes) :
    ∀ t ∈ shapes.flatten, ∀ d ∈ polyEdges t, d.1 ≠ d.2 ∧ InRange d.1 ∧ InRange d.2 ∧ ∀ q, onSeg q d.1 d.2 →
      NearPath (s.pathReach (outlineArea e s paths path) + roundingError k g ein) true path (fromGrid g c q) := by
  obtain ⟨a1, a2, -⟩ := outlineEdges_near hp hR ha
  intro t htm d hd
  obtain ⟨b1, b2, b3, b4⟩ := traced_near ho hcl (allTraced_outline _ _ _ _) (C48_outline _ _ _ _) hR.edges hR.frag a1 h t htm d hd
  refine ⟨b1, b2, b3, fun q hq => ?_⟩
  obtain ⟨E, hE, hw⟩ := b4 q hq
  exact a2 E hE _ q hw

end

end IOverlay
