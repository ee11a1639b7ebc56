/-
A stroke stays near its path: rounding to the grid, noding and extraction (proofs for C72).
-/
import Verif.StrokePieces
import Verif.OffDrift
import Verif.CanonRun
import Mathlib.Analysis.Normed.Module.Convex
import Mathlib.Topology.MetricSpace.Thickening
import Mathlib.Topology.Instances.RealVectorSpace
import Mathlib.Topology.Algebra.Order.Archimedean

namespace IOverlay
open Complex

/-! ### polygons in a convex set -/

/-- A set of points containing all (rational) points between any two of its points. -/
def QConvex (K : QPt → Prop) : Prop :=
  ∀ u v w : QPt, ∀ t : ℚ, K u → K v → 0 ≤ t → t ≤ 1 → w.x = u.x + t * (v.x - u.x) → w.y = u.y + t * (v.y - u.y) → K w

/-- Around a point outside a convex set, the edges between points of the set wind by the difference of a potential. -/
theorem edgeWind_convex {K : QPt → Prop} (hK : QConvex K) {q : QPt} (hq : ¬ K q) :
    ∃ f : Pt → Int, ∀ u v : Pt, K u.q → K v.q → edgeWind u v q = f u - f v := by
  classical
  have same : ∀ u v u' v' : Pt, K u.q → K v.q → K u'.q → K v'.q →
      (u.x : ℚ) ≤ q.x → q.x < v.x → (u'.x : ℚ) ≤ q.x → q.x < v'.x → aboveLine u v q → aboveLine u' v' q := by
    intro u v u' v' hu hv hu' hv' c1 c2 c3 c4 hab
    by_contra hn
    unfold aboveLine at hab hn
    rw [not_lt] at hn
    apply hq
    have d1 : 0 < (v.x : ℚ) - u.x := by linarith
    have d2 : 0 < (v'.x : ℚ) - u'.x := by linarith
    obtain ⟨t, ht⟩ : ∃ t : ℚ, t * ((v.x : ℚ) - u.x) = q.x - u.x := ⟨(q.x - u.x) / (v.x - u.x), by field_simp⟩
    obtain ⟨t', ht'⟩ : ∃ t : ℚ, t * ((v'.x : ℚ) - u'.x) = q.x - u'.x := ⟨(q.x - u'.x) / (v'.x - u'.x), by field_simp⟩
    have t0 : 0 ≤ t := by by_contra h; nlinarith
    have t1 : t ≤ 1 := by by_contra h; nlinarith
    have t0' : 0 ≤ t' := by by_contra h; nlinarith
    have t1' : t' ≤ 1 := by by_contra h; nlinarith
    have w1 : K ⟨q.x, u.y + t * ((v.y : ℚ) - u.y)⟩ :=
      hK _ _ _ t hu hv t0 t1 (by simp only [Pt.q]; linarith) (by simp only [Pt.q])
    have w2 : K ⟨q.x, u'.y + t' * ((v'.y : ℚ) - u'.y)⟩ :=
      hK _ _ _ t' hu' hv' t0' t1' (by simp only [Pt.q]; linarith) (by simp only [Pt.q])
    have y1 : u.y + t * ((v.y : ℚ) - u.y) < q.y := by
      have e : ((v.x : ℚ) - u.x) * (u.y + t * ((v.y : ℚ) - u.y)) = (v.x - u.x) * u.y + (v.y - u.y) * (q.x - u.x) := by
        rw [← ht]; ring
      by_contra h
      have := mul_le_mul_of_nonneg_left (not_lt.1 h) d1.le
      rw [e] at this; linarith
    have y2 : q.y ≤ u'.y + t' * ((v'.y : ℚ) - u'.y) := by
      have e : ((v'.x : ℚ) - u'.x) * (u'.y + t' * ((v'.y : ℚ) - u'.y)) = (v'.x - u'.x) * u'.y + (v'.y - u'.y) * (q.x - u'.x) := by
        rw [← ht']; ring
      by_contra h
      have := mul_lt_mul_of_pos_left (not_le.1 h) d2
      rw [e] at this; linarith
    generalize u.y + t * ((v.y : ℚ) - u.y) = A at *
    generalize u'.y + t' * ((v'.y : ℚ) - u'.y) = B at *
    have hAB : 0 < B - A := by linarith
    refine hK _ _ _ ((q.y - A) / (B - A)) w1 w2 (by apply div_nonneg <;> linarith)
      (by rw [div_le_one hAB]; linarith) (by simp) ?_
    dsimp only; field_simp; ring
  by_cases hc : ∃ u v : Pt, K u.q ∧ K v.q ∧ (u.x : ℚ) ≤ q.x ∧ q.x < v.x ∧ aboveLine u v q
  · obtain ⟨u0, v0, a1, a2, a3, a4, a5⟩ := hc
    refine ⟨fun u => if (u.x : ℚ) ≤ q.x then 1 else 0, ?_⟩
    intro u v hu hv
    unfold edgeWind
    by_cases c1 : (u.x : ℚ) ≤ q.x <;> by_cases c2 : (v.x : ℚ) ≤ q.x
    · rw [if_neg (by intro h; linarith [h.2.1]), if_neg (by intro h; linarith [h.2.1])]; simp [c1, c2]
    · rw [if_pos ⟨c1, not_le.1 c2, same u0 v0 u v a1 a2 hu hv a3 a4 c1 (not_le.1 c2) a5⟩]; simp [c1, c2]
    · rw [if_neg (by intro h; exact c1 h.1), if_pos ⟨c2, not_le.1 c1, same u0 v0 v u a1 a2 hv hu a3 a4 c2 (not_le.1 c1) a5⟩]
      simp [c1, c2]
    · rw [if_neg (by intro h; exact c1 h.1), if_neg (by intro h; exact c2 h.1)]; simp [c1, c2]
  · refine ⟨fun _ => 0, ?_⟩
    intro u v hu hv
    unfold edgeWind
    rw [if_neg fun h => hc ⟨u, v, hu, hv, h⟩, if_neg fun h => hc ⟨v, u, hv, hu, h⟩]; simp

theorem polyEdges_telescope (f : Pt → Int) (c : List Pt) : ((polyEdges c).map fun e => f e.1 - f e.2).sum = 0 := by
  have key : ∀ (l : List Pt) (p z : Pt), (((p :: l).zip (l ++ [z])).map fun e => f e.1 - f e.2).sum = f p - f z := by
    intro l
    induction l with
    | nil => intro p z; simp
    | cons m l ih =>
      intro p z
      rw [List.cons_append, List.zip_cons_cons, List.map_cons, List.sum_cons, ih m z]
      ring
  cases c with
  | nil => rfl
  | cons p ps => rw [polyEdges, key]; ring

/-- A polygon with vertices in a convex set does not wind around points outside. -/
theorem polyWind_convex {K : QPt → Prop} (hK : QConvex K) {q : QPt} (hq : ¬ K q) {c : List Pt} (hc : ∀ p ∈ c, K p.q) :
    polyWind c q = 0 := by
  obtain ⟨f, hf⟩ := edgeWind_convex hK hq
  unfold polyWind
  rw [← polyEdges_telescope f c]
  congr 1
  refine List.map_congr_left fun e he => ?_
  obtain ⟨h1, h2⟩ := polyEdges_mem he
  exact hf _ _ (hc _ h1) (hc _ h2)

/-! ### distances -/

theorem NearLine.mono {d e : ℝ} {z u v : ℂ} (h : NearLine d z u v) (hd : d ≤ e) : NearLine e z u v := by
  obtain ⟨w, h1, h2⟩ := h
  exact ⟨w, h1, h2.trans hd⟩

theorem NearLine.moved {d e : ℝ} {z z' u v : ℂ} (h : NearLine d z u v) (hz : ‖z' - z‖ ≤ e) : NearLine (d + e) z' u v := by
  obtain ⟨w, h1, h2⟩ := h
  refine ⟨w, h1, ?_⟩
  have := norm_add_le (z' - z) (z - w)
  rw [sub_add_sub_cancel] at this
  linarith

theorem NearLine.left {d : ℝ} {z u v : ℂ} (h : ‖z - u‖ ≤ d) : NearLine d z u v := ⟨u, left_mem_segment ℝ u v, h⟩

theorem NearLine.right {d : ℝ} {z u v : ℂ} (h : ‖z - v‖ ≤ d) : NearLine d z u v := ⟨v, right_mem_segment ℝ u v, h⟩

theorem NearLine.convex {d : ℝ} {z z' y u v : ℂ} (h : NearLine d z u v) (h' : NearLine d z' u v) (hy : y ∈ segment ℝ z z') :
    NearLine d y u v := by
  obtain ⟨w, h1, h2⟩ := h
  obtain ⟨w', h1', h2'⟩ := h'
  obtain ⟨a, b, a0, b0, ab, rfl⟩ := hy
  refine ⟨a • w + b • w', (convex_segment u v) h1 h1' a0 b0 ab, ?_⟩
  have e : a • z + b • z' - (a • w + b • w') = a • (z - w) + b • (z' - w') := by module
  rw [e]
  refine (norm_add_le _ _).trans ?_
  rw [norm_smul, norm_smul, Real.norm_of_nonneg a0, Real.norm_of_nonneg b0]
  have h3 := mul_le_mul_of_nonneg_left h2 a0
  have h4 := mul_le_mul_of_nonneg_left h2' b0
  have : a * d + b * d = d := by rw [← add_mul, ab, one_mul]
  linarith

theorem isClosed_nearLine (d : ℝ) (u v : ℂ) : IsClosed {z | NearLine d z u v} := by
  rcases lt_or_ge d 0 with hd | hd
  · have : {z | NearLine d z u v} = ∅ := by
      ext z
      simp only [Set.mem_setOf_eq, Set.mem_empty_iff_false, iff_false]
      rintro ⟨w, -, h⟩
      have := norm_nonneg (z - w)
      linarith
    rw [this]; exact isClosed_empty
  · have hc : IsCompact (segment ℝ u v) := by
      rw [segment_eq_image_lineMap]
      exact isCompact_Icc.image AffineMap.lineMap_continuous
    have : {z | NearLine d z u v} = Metric.cthickening d (segment ℝ u v) := by
      rw [hc.cthickening_eq_biUnion_closedBall hd]
      ext z
      simp only [Set.mem_setOf_eq, Set.mem_iUnion, Metric.mem_closedBall, exists_prop, NearLine, dist_eq_norm]
    rw [this]
    exact Metric.isClosed_cthickening

theorem norm_le_sqrt_two {z : ℂ} {d : ℝ} (h1 : |z.re| ≤ d) (h2 : |z.im| ≤ d) : ‖z‖ ≤ Real.sqrt 2 * d := by
  have hd : 0 ≤ d := (abs_nonneg _).trans h1
  have h3 : z.re ^ 2 ≤ d ^ 2 := by rw [← sq_abs]; gcongr
  have h4 : z.im ^ 2 ≤ d ^ 2 := by rw [← sq_abs]; gcongr
  have h5 : ‖z‖ ^ 2 ≤ (Real.sqrt 2 * d) ^ 2 := by
    rw [mul_pow, Real.sq_sqrt (by norm_num), Complex.sq_norm, Complex.normSq_apply]
    nlinarith
  exact abs_le_of_sq_le_sq' h5 (by positivity) |>.2

/-! ### the grid -/

theorem fromGrid_lerp (s : ℝ) (c : ℂ) {u v w : QPt} {t : ℚ} (t0 : 0 ≤ t) (t1 : t ≤ 1) (hx : w.x = u.x + t * (v.x - u.x))
    (hy : w.y = u.y + t * (v.y - u.y)) : fromGrid s c w ∈ segment ℝ (fromGrid s c u) (fromGrid s c v) := by
  refine ⟨1 - t, t, by exact_mod_cast sub_nonneg.2 (by exact_mod_cast t1), by exact_mod_cast t0, by ring, ?_⟩
  unfold fromGrid
  rw [hx, hy]
  have e : (⟨((u.x + t * (v.x - u.x) : ℚ) : ℝ), ((u.y + t * (v.y - u.y) : ℚ) : ℝ)⟩ : ℂ) =
      (1 - (t : ℂ)) * ⟨(u.x : ℝ), (u.y : ℝ)⟩ + t * ⟨(v.x : ℝ), (v.y : ℝ)⟩ := by
    apply Complex.ext
    · simp [Complex.add_re, Complex.mul_re]; ring
    · simp [Complex.add_im, Complex.mul_im]; ring
  rw [e]
  simp only [Complex.real_smul]
  push_cast
  ring

theorem fromGrid_sub (s : ℝ) (c : ℂ) (p q : QPt) :
    fromGrid s c p - fromGrid s c q = (⟨((p.x - q.x : ℚ) : ℝ), ((p.y - q.y : ℚ) : ℝ)⟩ : ℂ) / s := by
  unfold fromGrid
  rw [add_sub_add_left_eq_sub, ← sub_div]
  congr 1
  apply Complex.ext <;> simp

theorem fromGrid_close {s : ℝ} (hs : 0 < s) (c : ℂ) {p q : QPt} {d : ℚ} (hx : |p.x - q.x| ≤ d) (hy : |p.y - q.y| ≤ d) :
    ‖fromGrid s c p - fromGrid s c q‖ ≤ Real.sqrt 2 * d / s := by
  rw [fromGrid_sub, norm_div, Complex.norm_real, Real.norm_of_nonneg hs.le]
  gcongr
  apply norm_le_sqrt_two
  · dsimp only; exact_mod_cast hx
  · dsimp only; exact_mod_cast hy

/-- A converted point is close to the given one. -/
theorem GridOk.close {toInt : ℂ → Pt} {s : ℝ} (hs : 0 < s) {c : ℂ} {ein : ℝ} {z : ℂ} (h : GridOk toInt s c ein z) :
    ‖fromGrid s c (toInt z).q - z‖ ≤ Real.sqrt 2 * ein / s := by
  have hs' : (s : ℂ) ≠ 0 := by exact_mod_cast hs.ne'
  have e : fromGrid s c (toInt z).q - z =
      (⟨((toInt z).x : ℝ) - (toGrid s c z).re, ((toInt z).y : ℝ) - (toGrid s c z).im⟩ : ℂ) / s := by
    have : (⟨((toInt z).x : ℝ) - (toGrid s c z).re, ((toInt z).y : ℝ) - (toGrid s c z).im⟩ : ℂ) =
        ⟨((toInt z).x : ℝ), ((toInt z).y : ℝ)⟩ - toGrid s c z := by apply Complex.ext <;> simp
    rw [this]
    unfold fromGrid toGrid Pt.q
    dsimp only
    push_cast
    field_simp
    ring
  rw [e, norm_div, Complex.norm_real, Real.norm_of_nonneg hs.le]
  gcongr
  exact norm_le_sqrt_two h.1 h.2

theorem qconvex_near (s : ℝ) (c : ℂ) (d : ℝ) (u v : ℂ) : QConvex fun q => NearLine d (fromGrid s c q) u v := by
  intro p q w t hp hq t0 t1 hx hy
  exact hp.convex hq (fromGrid_lerp s c t0 t1 hx hy)

/-! ### the pieces of a stroke -/

/-- `z` is within `d` of a path. -/
def NearPath (d : ℝ) (closed : Bool) (path : List ℂ) (z : ℂ) : Prop :=
  ∃ u v, PathEdge closed path u v ∧ NearLine d z u v

theorem NearPath.moved {d e : ℝ} {closed : Bool} {path : List ℂ} {z z' : ℂ} (h : NearPath d closed path z)
    (hz : ‖z' - z‖ ≤ e) : NearPath (d + e) closed path z' := by
  obtain ⟨u, v, h1, h2⟩ := h
  exact ⟨u, v, h1, h2.moved hz⟩

theorem PathEdge.mem {closed : Bool} {path : List ℂ} {u v : ℂ} (h : PathEdge closed path u v) : u ∈ path ∧ v ∈ path := by
  rcases h with h | ⟨-, h1, h2⟩
  · exact ⟨h.subset (by simp), h.subset (by simp)⟩
  · exact ⟨List.mem_of_mem_getLast? h1, List.mem_of_mem_head? h2⟩

theorem isClosed_nearPaths (d : ℝ) (closed : Bool) (paths : List (List ℂ)) :
    IsClosed {z | ∃ path ∈ paths, NearPath d closed path z} := by
  have hf : {e : ℂ × ℂ | ∃ path ∈ paths, PathEdge closed path e.1 e.2}.Finite := by
    refine ((List.finite_toSet paths.flatten).prod (List.finite_toSet paths.flatten)).subset ?_
    rintro ⟨u, v⟩ ⟨path, hp, h⟩
    exact ⟨List.mem_flatten.2 ⟨path, hp, h.mem.1⟩, List.mem_flatten.2 ⟨path, hp, h.mem.2⟩⟩
  have := hf.isClosed_biUnion fun e _ => isClosed_nearLine d e.1 e.2
  convert this using 1
  ext z
  simp only [Set.mem_setOf_eq, Set.mem_iUnion, NearPath, Prod.exists, exists_prop]
  constructor
  · rintro ⟨path, hp, u, v, h1, h2⟩; exact ⟨u, v, ⟨path, hp, h1⟩, h2⟩
  · rintro ⟨u, v, ⟨path, hp, h1⟩, h2⟩; exact ⟨path, hp, u, v, h1, h2⟩

/-- Contract of the conversion to the grid for a stroke: near the points of the paths, every coordinate is moved by at most
`ein` units, and stays in the range of the integer algorithms. -/
def GridNear (toInt : ℂ → Pt) (s : ℝ) (c : ℂ) (ein R : ℝ) (pts : List ℂ) : Prop :=
  ∀ u ∈ pts, ∀ z, ‖z - u‖ ≤ R → GridOk toInt s c ein z ∧ InRange (toInt z)

section
variable {toInt : ℂ → Pt} {ratio : ℝ} {g : ℝ} {c : ℂ} {ein : ℝ}

theorem encl_near (hg : 0 < g) {R : ℝ} {pts : List ℂ} (hG : GridNear toInt g c ein R pts) (hR : 0 ≤ R) {u v w : ℂ}
    (hu : u ∈ pts) (hv : v ∈ pts) (hw : w ∈ pts) (huw : toInt w = toInt u) {cs : List Pt} (h : Encl toInt R u v cs) :
    ∀ p ∈ cs, InRange p ∧ NearLine (R + 3 * (Real.sqrt 2 * ein / g)) (fromGrid g c p.q) w v := by
  have self : ∀ x ∈ pts, GridOk toInt g c ein x := fun x hx => (hG x hx x (by simpa using hR)).1
  have e0 : 0 ≤ Real.sqrt 2 * ein / g := (norm_nonneg _).trans ((self u hu).close hg)
  intro p hp
  obtain ⟨z, hz, rfl⟩ := h p hp
  rcases hz with hz | hz
  · obtain ⟨h1, h2⟩ := hG u hu z hz
    refine ⟨h2, .left ?_⟩
    have a1 := h1.close hg
    have a2 := (self u hu).close hg
    have a3 := (self w hw).close hg
    rw [huw] at a3
    rw [norm_sub_rev] at a2
    have e : fromGrid g c (toInt z).q - w = (fromGrid g c (toInt z).q - z) + ((z - u) + ((u - fromGrid g c (toInt u).q) +
      (fromGrid g c (toInt u).q - w))) := by ring
    rw [e]
    have b1 := norm_add_le (fromGrid g c (toInt z).q - z) ((z - u) + ((u - fromGrid g c (toInt u).q) +
      (fromGrid g c (toInt u).q - w)))
    have b2 := norm_add_le (z - u) ((u - fromGrid g c (toInt u).q) + (fromGrid g c (toInt u).q - w))
    have b3 := norm_add_le (u - fromGrid g c (toInt u).q) (fromGrid g c (toInt u).q - w)
    linarith
  · obtain ⟨h1, h2⟩ := hG v hv z hz
    refine ⟨h2, ((NearLine.right hz).moved (h1.close hg)).mono ?_⟩
    linarith

/-- Every piece of a stroke lies within reach of an edge of its path. -/
theorem pieces_near (hg : 0 < g) {s : StrokeStyle} {closed : Bool} {path : List ℂ} (hseam : closed = true → Seam toInt path)
    (hR : 0 ≤ s.reach closed) (hG : GridNear toInt g c ein (s.reach closed) path) {cs : List (List Pt)}
    (h : StrokePieces (realOps toInt ratio) s.params closed path cs) :
    ∀ d ∈ cs, ∃ u v, PathEdge closed path u v ∧
      ∀ p ∈ d, InRange p ∧ NearLine (s.reach closed + 3 * (Real.sqrt 2 * ein / g)) (fromGrid g c p.q) u v := by
  intro d hd
  obtain ⟨u, v, w, h1, h2, h3, h4, h5⟩ := strokePieces_encl hseam h d hd
  exact ⟨w, v, h1, encl_near hg hG hR h3 h4 h1.mem.1 h2 h5⟩

theorem strokes_near (hg : 0 < g) {s : StrokeStyle} {closed : Bool} (hR : 0 ≤ s.reach closed) :
    ∀ {paths : List (List ℂ)}, (closed = true → ∀ path ∈ paths, Seam toInt path) →
    GridNear toInt g c ein (s.reach closed) paths.flatten → ∀ {css : List (List (List Pt))},
    List.Forall₂ (StrokePieces (realOps toInt ratio) s.params closed) paths css →
    ∀ d ∈ css.flatten, ∃ path ∈ paths, ∃ u v, PathEdge closed path u v ∧
      ∀ p ∈ d, InRange p ∧ NearLine (s.reach closed + 3 * (Real.sqrt 2 * ein / g)) (fromGrid g c p.q) u v := by
  intro paths hseam hG css h
  induction h with
  | nil => simp
  | @cons path cs paths css h _ ih =>
    intro d hd
    rw [List.flatten_cons] at hd
    rcases List.mem_append.1 hd with hd | hd
    · obtain ⟨u, v, h1⟩ := pieces_near hg (fun hc => hseam hc path (by simp)) hR
        (fun u hu => hG u (by simp [hu])) h d hd
      exact ⟨path, by simp, u, v, h1⟩
    · obtain ⟨path', h0, u, v, h1⟩ := ih (fun hc p hp => hseam hc p (by simp [hp]))
        (fun u hu => hG u (by rw [List.flatten_cons]; exact List.mem_append_right _ hu)) d hd
      exact ⟨path', by simp [h0], u, v, h1⟩

end

end IOverlay
