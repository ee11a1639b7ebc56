/-
C77: an outline covers the inside of its paths and the bands, joins and triangles along them, or what these leave of the inside.
-/
import Verif.OutlinePath
import Verif.Props.OutlineFollow

namespace IOverlay
open Complex

/-! ### specification -/

/-- By how much a path grows: counterclockwise paths by the outer offset; holes, taken in reverse, shrink by the inner one. -/
noncomputable def OutlineStyle.growth (s : OutlineStyle) (area : Int) : ℝ := if area < 0 then s.outerOffset else -s.innerOffset

/-- A path that leaves room for its outline, with no two consecutive points the same on the grid. -/
structure FittingPath (e : OutlineEnv) (s : OutlineStyle) (paths : List (List ℂ)) (path : List ℂ) : Prop where
  apart : RingApart (outlineAdapter e s paths).toInt (alongPath (outlineArea e s paths path) path)
  room : RoomFor (s.growth (outlineArea e s paths path)) (alongPath (outlineArea e s paths path) path)

/-- `z` is farther than `d` from all sides of the outline of a path. -/
def ClearOf (e : OutlineEnv) (s : OutlineStyle) (paths : List (List ℂ)) (path : List ℂ) (d : ℝ) (z : ℂ) : Prop :=
  ∀ a b, OutlineSide (outlineAdapter e s paths).toInt s.join (s.growth (outlineArea e s paths path))
    (alongPath (outlineArea e s paths path) path) a b → ¬ NearLine d z a b

/-- The path does not wind clockwise around `z` if it grows, and not more than once if it shrinks. True everywhere for
simple counterclockwise paths. -/
def SimplyAround (δ : ℝ) (path : List ℂ) (z : ℂ) : Prop :=
  (0 < δ → 0 ≤ polyWindC path z) ∧ (¬ 0 < δ → polyWindC path z ≤ 1)

/-- What the outline of one of the paths covers: of holes, what the hole covers after shrinking (or growing). -/
def PathCovers (e : OutlineEnv) (s : OutlineStyle) (paths : List (List ℂ)) (path : List ℂ) (z : ℂ) : Prop :=
  OutlineCovers (outlineAdapter e s paths).toInt s.join (s.growth (outlineArea e s paths path))
    (alongPath (outlineArea e s paths path) path) z

open Classical in
/-- The number of outlined counterclockwise paths that cover a point, less the number of holes that do (paths of tiny area do not
count). -/
noncomputable def partCount (e : OutlineEnv) (s : OutlineStyle) (paths : List (List ℂ)) (z : ℂ) : Int :=
  ((paths.filter fun path => decide (1 < (outlineArea e s paths path).natAbs)).map fun path =>
    (if outlineArea e s paths path < 0 then (1 : Int) else -1) * if PathCovers e s paths path z then 1 else 0).sum

section
variable {e : OutlineEnv} {k : OffConfig} {kb : Config} {x : Externals} {s : OutlineStyle} {cw : Bool} {minArea : ℝ}
  {paths : List (List ℂ)} {path : List ℂ} {g : ℝ} {c : ℂ} {ein eout : ℝ}

/-- Outwards, there is always room for the outline of a path that never turns right. -/
theorem C77_room_convex {δ : ℝ} (h0 : 0 < δ) (h : ∀ u v w, [u, v, w] <:+: ringOf path → 0 ≤ bend u v w) : RoomFor δ path := by
  have ho : ∀ u v w, [u, v, w] <:+: ringOf path → OuterCorner δ u v w := by
    intro u v w hw
    unfold OuterCorner
    rw [if_pos h0]
    exact h u v w hw
  refine ⟨fun t u v w hw => ?_, fun u v w hw hn => absurd (ho u v w hw) hn⟩
  unfold cutOff
  rw [if_pos (ho t u v (List.IsInfix.trans ⟨[], [w], rfl⟩ hw)), if_pos (ho u v w (List.IsInfix.trans ⟨[t], [], rfl⟩ hw)), add_zero]
  exact norm_nonneg _

/-! ### one path -/

/-- The growth decides what is covered. -/
theorem covers_of_wind {toInt : ℂ → Pt} {j : LineJoin} {δ : ℝ} {z : ℂ} (hS : SimplyAround δ path z) {C : Int} (h0 : 0 ≤ C)
    (hC : C ≠ 0 ↔ ∃ P, OutlinePart toInt j δ path P ∧ polyWindC P z ≠ 0) :
    0 < polyWindC path z + sideSign δ * C ↔ OutlineCovers toInt j δ path z := by
  unfold OutlineCovers sideSign
  obtain ⟨s1, s2⟩ := hS
  by_cases hδ : 0 < δ
  · rw [if_pos hδ, if_pos hδ, ← hC]
    have := s1 hδ
    omega
  · rw [if_neg hδ, if_neg hδ, ← hC]
    have := s2 hδ
    omega

theorem radius_growth (s : OutlineStyle) (a : Int) : s.params.radius a = -s.growth a := by
  unfold OutlineParams.radius OutlineStyle.params OutlineStyle.growth
  split <;> simp

theorem outlineEdges_growth : outlineEdges e s paths path =
    (realOps (outlineAdapter e s paths).toInt s.join.normalize.ratio).outlineSegments (-s.growth (outlineArea e s paths path))
      (s.join.normalize.oBuild (-s.growth (outlineArea e s paths path))) (alongPath (outlineArea e s paths path) path) := by
  unfold outlineEdges FloatOps.pathEdges
  rw [params_join, radius_growth]

theorem growth_reach (s : OutlineStyle) (a : Int) : s.join.reach |s.growth a| = s.pathReach a := by
  rw [OutlineStyle.pathReach, ← params_radius, radius_growth, abs_neg]

theorem mem_alongPath {a : Int} {u : ℂ} (h : u ∈ alongPath a path) : u ∈ path := by
  unfold alongPath at h
  split at h
  · exact h
  · exact List.mem_reverse.1 h

theorem outline_grid (hp : path ∈ paths) (ha : (outlineAdapter e s paths).Good g c ein eout (OutlineReached e s paths)) :
    ∀ u ∈ alongPath (outlineArea e s paths path) path, ∀ y, ‖y - u‖ ≤ s.join.reach |s.growth (outlineArea e s paths path)| →
      GridOk (outlineAdapter e s paths).toInt g c ein y := by
  intro u hu y hy
  rw [growth_reach] at hy
  exact (ha.toInt y ⟨path, hp, u, mem_alongPath hu, hy⟩).1

/-- The bounds used for rounding. -/
theorem round_bounds (hg : 0 < g) (hein : 0 ≤ ein) :
    Real.sqrt 2 * ein / g + Real.sqrt 2 * drift k.sr k.fuel / g ≤ roundingError k g ein ∧
    Real.sqrt 2 * ein / g ≤ roundingError k g ein := by
  have hdr : (0 : ℝ) ≤ drift k.sr k.fuel := by exact_mod_cast drift_nonneg k.fuel k.sr
  have h1 : Real.sqrt 2 * ein / g + Real.sqrt 2 * drift k.sr k.fuel / g ≤ roundingError k g ein := by
    unfold roundingError
    rw [← add_div, ← mul_add]
    gcongr
    linarith
  refine ⟨h1, le_trans ?_ h1⟩
  have : 0 ≤ Real.sqrt 2 * drift k.sr k.fuel / g := by positivity
  linarith

theorem ein_nonneg (hp : path ∈ paths) (ha : (outlineAdapter e s paths).Good g c ein eout (OutlineReached e s paths)) {u : ℂ}
    (hu : u ∈ alongPath (outlineArea e s paths path) path) : 0 ≤ ein := by
  by_contra hn
  have hg := ha.pos
  have h0 : Real.sqrt 2 * ein / g < 0 := div_neg_of_neg_of_pos (mul_neg_of_pos_of_neg (by positivity) (not_le.1 hn)) hg
  have hr : 0 ≤ s.join.reach |s.growth (outlineArea e s paths path)| :=
    (abs_nonneg _).trans (join_reach_ge _ (abs_nonneg _))
  have := (norm_nonneg _).trans ((outline_grid hp ha u hu u (by simpa using hr)).close hg)
  linarith

/-- Points close to a registered edge are close to a side. -/
theorem within_side (hp : path ∈ paths) (hF : FittingPath e s paths path)
    (ha : (outlineAdapter e s paths).Good g c ein eout (OutlineReached e s paths)) {d : Seg CountOff}
    (hd : d ∈ outlineEdges e s paths path) {q : QPt} (hw : Within (drift k.sr k.fuel) q d.a d.b) :
    ∃ a b, OutlineSide (outlineAdapter e s paths).toInt s.join (s.growth (outlineArea e s paths path))
      (alongPath (outlineArea e s paths path) path) a b ∧ NearLine (roundingError k g ein) (fromGrid g c q) a b := by
  have hg := ha.pos
  rw [outlineEdges_growth] at hd
  obtain ⟨a, b, hab, hj⟩ := (outline_path_wind (q := q) hg hF.apart hF.room (outline_grid hp ha)).1 d hd
  obtain ⟨⟨u, hu, r1⟩, ⟨u', hu', r2⟩⟩ := outline_side_reach hF.apart hab
  have na := NearLine.left (v := b) ((outline_grid hp ha u hu _ r1).close hg)
  have nb := NearLine.right (u := a) ((outline_grid hp ha u' hu' _ r2).close hg)
  obtain ⟨p, ⟨t, t0, t1, px, py⟩, p1, p2⟩ := hw
  have hp' : NearLine (Real.sqrt 2 * ein / g) (fromGrid g c p) a b := by
    rcases hj with ⟨j1, j2⟩ | ⟨j1, j2⟩
    · exact qconvex_near g c _ a b d.a.q d.b.q p t (by rw [j1]; exact na) (by rw [j2]; exact nb) t0 t1 px py
    · exact qconvex_near g c _ a b d.a.q d.b.q p t (by rw [j1]; exact nb) (by rw [j2]; exact na) t0 t1 px py
  exact ⟨a, b, hab, (hp'.moved (fromGrid_close hg c p1 p2)).mono (round_bounds hg (ein_nonneg hp ha hu)).1⟩

/-- The noded edges of a path wind around exactly what the path covers. -/
theorem outlineNoded_covers (ho : OffAssumed k x) (hp : path ∈ paths) (hR : RegularPath e k s paths path)
    (hF : FittingPath e s paths path)
    (ha : (outlineAdapter e s paths).Good g c ein eout (OutlineReached e s paths)) {r : List (Seg CountOff)}
    (hr : nodedEdges k.st k.sr k.tree k.fuel (outlineEdges e s paths path) = some r) (q : QPt)
    (hq : ClearOf e s paths path (roundingError k g ein) (fromGrid g c q))
    (hS : SimplyAround (s.growth (outlineArea e s paths path)) (alongPath (outlineArea e s paths path) path) (fromGrid g c q)) :
    0 < segsWind CountOff.subj r q ↔ PathCovers e s paths path (fromGrid g c q) := by
  obtain ⟨a1, -, -⟩ := outlineEdges_near hp hR ha
  have ht := allTraced_outline (realOps (outlineAdapter e s paths).toInt s.join.normalize.ratio)
    (s.params.radius (outlineArea e s paths path)) (s.params.joinFor (outlineArea e s paths path))
    (alongPath (outlineArea e s paths path) path)
  have hb := C48_outline (realOps (outlineAdapter e s paths).toInt s.join.normalize.ratio)
    (s.params.radius (outlineArea e s paths path)) (s.params.joinFor (outlineArea e s paths path))
    (alongPath (outlineArea e s paths path) path)
  have hl : ∀ d ∈ outlineEdges e s paths path, d.a < d.b := fun d hd => (ht d hd).lt (hR.edges d hd)
  have hok : OffOk (outlineEdges e s paths path) := ⟨(closed_iff_balanced _ _).2 hb, fun d hd => (ht d hd).nonempty⟩
  rw [(off_drift ho.tree hl hok hR.frag a1 hr).1 q]
  · obtain ⟨C, h1, h2, h3⟩ := (outline_path_wind (q := q) ha.pos hF.apart hF.room (outline_grid hp ha)).2 (by
      intro a b hab hn
      obtain ⟨⟨u, hu, -⟩, -⟩ := outline_side_reach hF.apart hab
      exact hq a b hab (hn.mono (round_bounds (k := k) ha.pos (ein_nonneg hp ha hu)).2))
    rw [outlineEdges_growth, h1]
    exact covers_of_wind hS h2 h3
  · intro d hdm hw
    obtain ⟨a, b, h1, h2⟩ := within_side hp hF ha hdm hw
    exact hq a b h1 h2

open Classical in
/-- C77 (one path): the outline of a counterclockwise path consists of those contours of a region that have an edge on a drawn side
and are large enough (as C52). Up to rounding, this region is, outwards, the inside of the path together with the bands along its
edges, the joins and the triangles at its corners; inwards, the inside of the path without these. So it is for the returned
contours, if none is dropped. No edge may be shorter than what is cut off at its ends. -/
theorem C77_single (e : OutlineEnv) (k : OffConfig) (kb : Config) (x : Externals) (ho : OffAssumed k x)
    (s : OutlineStyle) (cw : Bool) (minArea : ℝ) (path : List ℂ) (hA : outlineArea e s [path] path < -1)
    (hR : RegularPath e k s [path] path) (hP : RingApart (outlineAdapter e s [path]).toInt path)
    (hroom : RoomFor s.outerOffset path) (r : List (Seg CountOff))
    (hr : nodedEdges k.st k.sr k.tree k.fuel (outlineEdges e s [path] path) = some r) (h2r : AtMostTwoRight (regionEdges r))
    (g : ℝ) (c : ℂ) (ein eout : ℝ) (ha : (outlineAdapter e s [path]).Good g c ein eout (OutlineReached e s [path]))
    (out : List (List (List ℂ))) (h : outlineCustom e k kb x s cw minArea false [path] = some out) :
    ∃ (outer holes : List (List Pt)) (shapes : List (List (List Pt))), out = toFloats (outlineAdapter e s [path]) shapes ∧
      OffsetContours cw r outer holes ∧
      outerContours shapes = (outer.filter fun c => decide (KeptOff x.clean r
        (max (e.sqrToInt (outlineAdapter e s [path]) minArea) 1) c)).map (fun c => (x.clean c).1) ∧
      (shapes = [] ∨ (holeContours shapes).Perm ((holes.filter fun c => decide (KeptOff x.clean r
        (max (e.sqrToInt (outlineAdapter e s [path]) minArea) 1) c)).map fun c => (x.clean c).1)) ∧
      ∀ q, (∀ a b, OutlineSide (outlineAdapter e s [path]).toInt s.join s.outerOffset path a b →
          ¬ NearLine (roundingError k g ein) (fromGrid g c q) a b) →
        SimplyAround s.outerOffset path (fromGrid g c q) →
        polysWind (outer ++ holes) q = outerTurn cw *
          (if OutlineCovers (outlineAdapter e s [path]).toInt s.join s.outerOffset path (fromGrid g c q) then 1 else 0) ∧
        ((∀ c ∈ outer ++ holes, KeptOff x.clean r (max (e.sqrToInt (outlineAdapter e s [path]) minArea) 1) c) →
          polysWind shapes.flatten q = outerTurn cw *
            if OutlineCovers (outlineAdapter e s [path]).toInt s.join s.outerOffset path (fromGrid g c q) then 1 else 0) := by
  obtain ⟨shapes, rfl, h2⟩ := outlineCustom_single h
  rcases h2 with ⟨-, h3⟩ | ⟨-, h2⟩
  · omega
  have hneg : outlineArea e s [path] path < 0 := by omega
  have hgr : s.growth (outlineArea e s [path] path) = s.outerOffset := if_pos hneg
  have hal : alongPath (outlineArea e s [path] path) path = path := if_pos hneg
  have hF : FittingPath e s [path] path := ⟨by rw [hal]; exact hP, by rw [hal, hgr]; exact hroom⟩
  obtain ⟨outer, holes, c1, c2, c3, -⟩ := offset_contours ho (allTraced_outline _ _ _ _) (C48_outline _ _ _ _) hR.edges hR.frag hr
    h2r h2
  refine ⟨outer, holes, shapes, rfl, c1, c2, c3, fun q hq hS => ?_⟩
  have hw : polysWind (outer ++ holes) q = outerTurn cw *
      if OutlineCovers (outlineAdapter e s [path]).toInt s.join s.outerOffset path (fromGrid g c q) then 1 else 0 := by
    have := outlineNoded_covers ho (List.mem_singleton.2 rfl) hR hF ha hr q
      (by unfold ClearOf; rw [hal, hgr]; exact hq) (by rw [hal, hgr]; exact hS)
    unfold PathCovers at this
    rw [hal, hgr] at this
    rw [c1.wind q]
    simp only [this]
  refine ⟨hw, fun hk => ?_⟩
  rw [List.filter_eq_self.2 fun c hc => decide_eq_true (hk c (by simp [hc]))] at c2
  rw [List.filter_eq_self.2 fun c hc => decide_eq_true (hk c (by simp [hc]))] at c3
  rw [kept_wind ho.clean c1.holesOnce (fun q => ?_) c2 c3 q, hw]
  rw [c1.wind q]
  split
  · exact ⟨1, by simp⟩
  · exact ⟨0, by simp⟩

/-! ### several paths -/

theorem outlineParts_sides (ho : OffAssumed k x) (hcl : CleanEdges x.clean)
    (hR : ∀ path, Counted e s paths path → RegularPath e k s paths path)
    (hF : ∀ path, Counted e s paths path → FittingPath e s paths path)
    (ha : (outlineAdapter e s paths).Good g c ein eout (OutlineReached e s paths)) {parts : List (List (List Pt))}
    (hparts : outlineParts e k x s paths = some parts) :
    ∀ t ∈ parts.flatten, ∀ d ∈ polyEdges t, ∀ q, onSeg q d.1 d.2 → ∃ path, Counted e s paths path ∧
      ¬ ClearOf e s paths path (roundingError k g ein) (fromGrid g c q) := by
  intro t ht d hd q hq
  obtain ⟨path, hp, part, h1, h2⟩ := forall₂_flatten_mem (mapM_forall₂ hparts) ht
  rcases outlinePart_of h1 with ⟨-, rfl⟩ | ⟨hA, shapes, h3, rfl⟩
  · simp at h2
  have hC : Counted e s paths path := ⟨hp, hA⟩
  obtain ⟨a1, -, -⟩ := outlineEdges_near hp (hR path hC) ha
  have hn := traced_near ho hcl (allTraced_outline _ _ _ _) (C48_outline _ _ _ _) (hR path hC).edges (hR path hC).frag a1 h3
  refine ⟨path, hC, ?_⟩
  have fin : ∀ E ∈ outlineEdges e s paths path, Within (drift k.sr k.fuel) q E.a E.b →
      ¬ ClearOf e s paths path (roundingError k g ein) (fromGrid g c q) := by
    intro E hE hw hclear
    obtain ⟨a, b, h1, h2⟩ := within_side hp (hF path hC) ha hE hw
    exact hclear a b h1 h2
  split at h2
  · obtain ⟨-, -, -, n4⟩ := hn t h2 d hd
    obtain ⟨E, hE, hw⟩ := n4 q hq
    exact fin E hE hw
  · obtain ⟨t', h4, rfl⟩ := List.mem_map.1 h2
    rw [(polyEdges_reverse t').mem_iff] at hd
    obtain ⟨d', hd', rfl⟩ := List.mem_map.1 hd
    obtain ⟨-, -, -, n4⟩ := hn t' h4 d' hd'
    obtain ⟨E, hE, hw⟩ := n4 q (onSeg_symm hq)
    exact fin E hE hw

theorem ClearOf.mono {d d' : ℝ} {z : ℂ} (h : ClearOf e s paths path d' z) (hd : d ≤ d') : ClearOf e s paths path d z :=
  fun a b hab hn => h a b hab (hn.mono hd)

theorem ClearOf.moved {d r : ℝ} {z z' : ℂ} (h : ClearOf e s paths path (d + r) z') (hr : ‖z' - z‖ ≤ r) : ClearOf e s paths path d z :=
  fun a b hab hn => h a b hab (hn.moved hr)

/-- The parts count the covering paths. -/
theorem outlineParts_count (ho : OffAssumed k x) (hR : ∀ path, Counted e s paths path → SidedPath e k s paths path)
    (hF : ∀ path, Counted e s paths path → FittingPath e s paths path)
    (ha : (outlineAdapter e s paths).Good g c ein eout (OutlineReached e s paths)) {parts : List (List (List Pt))}
    (hparts : outlineParts e k x s paths = some parts) (q : QPt) (hq : ∀ path, Counted e s paths path →
      ClearOf e s paths path (roundingError k g ein) (fromGrid g c q) ∧
      SimplyAround (s.growth (outlineArea e s paths path)) (alongPath (outlineArea e s paths path) path) (fromGrid g c q)) :
    polysWind parts.flatten q = partCount e s paths (fromGrid g c q) := by
  classical
  have hf := mapM_forall₂ hparts
  unfold partCount
  have key : ∀ (l : List (List ℂ)) (m : List (List (List Pt))), (∀ path ∈ l, path ∈ paths) →
      List.Forall₂ (fun path part => (realOps (outlineAdapter e s paths).toInt s.join.normalize.ratio).outlinePart k x
        (outlineArea e s paths) s.params path = some part) l m →
      polysWind m.flatten q = ((l.filter fun path => decide (1 < (outlineArea e s paths path).natAbs)).map fun path =>
    (if outlineArea e s paths path < 0 then (1 : Int) else -1) * if PathCovers e s paths path (fromGrid g c q) then 1 else 0).sum := by
    intro l m hl h
    induction h with
    | nil => rfl
    | @cons path part ls rs h1 _ ih =>
      have hi := ih fun p hp => hl p (by simp [hp])
      have happ : polysWind (part :: rs).flatten q = polysWind part q + polysWind rs.flatten q := by
        unfold polysWind; rw [List.flatten_cons, List.map_append, List.sum_append]
      rw [happ, hi]
      rcases outlinePart_of h1 with ⟨hA, rfl⟩ | ⟨hA, shapes, h3, rfl⟩
      · rw [List.filter_cons_of_neg (by simpa using hA)]
        simp [polysWind]
      · rw [List.filter_cons_of_pos (by simpa using hA), List.map_cons, List.sum_cons]
        congr 1
        have hC : Counted e s paths path := ⟨hl path (by simp), hA⟩
        have hs := hR path hC
        obtain ⟨r, hr⟩ := offset_noded h3
        obtain ⟨d1, d2⟩ := hs.sides r hr
        have main := offset_sides ho (allTraced_outline _ _ _ _) (C48_outline _ _ _ _) hs.edges hs.frag hr d2 d1 h3 q
        have hcov := outlineNoded_covers ho hC.1 hs.toRegularPath (hF path hC) ha hr q (hq path hC).1 (hq path hC).2
        have e1 : outerTurn false = 1 := rfl
        rw [e1, one_mul] at main
        have main : polysWind shapes.flatten q = if PathCovers e s paths path (fromGrid g c q) then 1 else 0 := by
          rw [main]
          simp only [hcov]
        split
        · rw [main, one_mul]
        · rw [polysWind_reverses, main, neg_one_mul]
  exact key paths parts (fun _ h => h) hf

open Classical in
/-- C77 (several paths): the outline consists of those contours of a region that are large enough (as C52). Up to rounding, this
region is what is covered by more outlined counterclockwise paths than outlined holes, each as in `C77_single`. So it is for the
returned contours, if none is dropped. -/
theorem C77_many (e : OutlineEnv) (k : OffConfig) (kb : Config) (x : Externals) (ho : OffAssumed k x) (hb : Assumed kb x)
    (hcl : CleanAssumed x) (s : OutlineStyle) (cw : Bool) (minArea : ℝ) (paths : List (List ℂ)) (hlen : 2 ≤ paths.length)
    (hR : ∀ path, Counted e s paths path → SidedPath e k s paths path)
    (hF : ∀ path, Counted e s paths path → FittingPath e s paths path) (parts : List (List (List Pt)))
    (hparts : outlineParts e k x s paths = some parts) (hf : FragFor kb parts.flatten []) (links : List Link)
    (hl : buildBoolean (isIncluded .subject) .positive kb.st kb.sr kb.tree kb.scan kb.fuel
      (overlaySegments parts.flatten []) = some links)
    (h2l : AtMostTwoRight (links.map fun l => (l.a, l.b)))
    (g : ℝ) (c : ℂ) (ein eout : ℝ) (ha : (outlineAdapter e s paths).Good g c ein eout (OutlineReached e s paths))
    (out : List (List (List ℂ))) (h : outlineCustom e k kb x s cw minArea false paths = some out) :
    ∃ (outer holes : List (List Pt)) (shapes : List (List (List Pt))), out = toFloats (outlineAdapter e s paths) shapes ∧
      (∀ c ∈ outer, WindsOnce (outerTurn cw) c) ∧ (∀ c ∈ holes, WindsOnce (- outerTurn cw) c) ∧
      (outer ++ holes).Pairwise Nested ∧
      outerContours shapes = (outer.filter fun c => decide (LargeEnough
        (max (e.sqrToInt (outlineAdapter e s paths) minArea) 1) (x.clean c).1)).map (fun c => (x.clean c).1) ∧
      (shapes = [] ∨ (holeContours shapes).Perm ((holes.filter fun c => decide (LargeEnough
        (max (e.sqrToInt (outlineAdapter e s paths) minArea) 1) (x.clean c).1)).map fun c => (x.clean c).1)) ∧
      ∀ q, (∀ path, Counted e s paths path → ClearOf e s paths path (outlineError k kb g ein) (fromGrid g c q) ∧
          SimplyAround (s.growth (outlineArea e s paths path)) (alongPath (outlineArea e s paths path) path) (fromGrid g c q)) →
        polysWind (outer ++ holes) q = outerTurn cw * (if 0 < partCount e s paths (fromGrid g c q) then 1 else 0) ∧
        ((∀ c ∈ outer ++ holes, LargeEnough (max (e.sqrToInt (outlineAdapter e s paths) minArea) 1) (x.clean c).1) →
          polysWind shapes.flatten q = outerTurn cw * if 0 < partCount e s paths (fromGrid g c q) then 1 else 0) := by
  obtain ⟨shapes, parts', rfl, hparts', h2⟩ := outlineCustom_many hlen h
  rw [hparts] at hparts'
  obtain rfl := Option.some.inj hparts'
  have hR' := fun p hp => (hR p hp).toRegularPath
  have hn := outlineParts_near ho hcl.edges hR' ha hparts
  obtain ⟨p1, p2⟩ := parts_range (parts := parts.flatten)
    (P := fun a b => ∃ path, Counted e s paths path ∧ ∀ q, onSeg q a b →
      NearPath (s.pathReach (outlineArea e s paths path) + roundingError k g ein) true path (fromGrid g c q)) hn
  have hside := outlineParts_sides ho hcl.edges hR' hF ha hparts
  obtain ⟨segs, outer, holes, c1, c2, c3, c4, c5, c6, c7, c8, -⟩ :=
    C24_contours kb x hb .subject .positive cw _ parts.flatten [] hf links hl h2l shapes h2
  have hd := (noded_drift hb.tree hf (fun c hc => p1 c (List.mem_append_left _ hc)) (by simp) p2 c1).1
  refine ⟨outer, holes, shapes, rfl, c4, c5, c6, c7, c8, fun q hq => ?_⟩
  have hle : roundingError k g ein ≤ outlineError k kb g ein := by
    unfold outlineError
    have hg := ha.pos
    have : (0 : ℝ) ≤ drift kb.sr kb.fuel := by exact_mod_cast drift_nonneg kb.fuel kb.sr
    have : 0 ≤ Real.sqrt 2 * (drift kb.sr kb.fuel : ℚ) / g := by positivity
    linarith
  have hw : polysWind (outer ++ holes) q = outerTurn cw * if 0 < partCount e s paths (fromGrid g c q) then 1 else 0 := by
    rw [c3 q, (hd q ?_).1, outlineParts_count ho hR hF ha hparts q fun path hC => ⟨(hq path hC).1.mono hle, (hq path hC).2⟩]
    · simp [OverlayRule.op, FillRule.inside]
    · intro d hdm hw
      rw [List.append_nil, List.mem_flatMap] at hdm
      obtain ⟨t, ht, hdm⟩ := hdm
      obtain ⟨p, hp, p1, p2⟩ := hw
      obtain ⟨path, hC, hnot⟩ := hside t ht d hdm p hp
      exact hnot ((hq path hC).1.moved (fromGrid_close ha.pos c p1 p2))
  refine ⟨hw, fun hk => ?_⟩
  rw [List.filter_eq_self.2 fun c hc => decide_eq_true (hk c (by simp [hc]))] at c7
  rw [List.filter_eq_self.2 fun c hc => decide_eq_true (hk c (by simp [hc]))] at c8
  rw [kept_wind ho.clean c5 (fun q => ?_) c7 c8 q, hw]
  rw [c3 q]
  split
  · exact ⟨1, by simp⟩
  · exact ⟨0, by simp⟩

open Classical in
/-- C77 (default): `outline` without further arguments, for coordinates of more than 32 bits, of a single path. -/
theorem C77_default (e : OutlineEnv) (k : OffConfig) (kb : Config) (x : Externals) (ho : OffAssumed k x)
    (s : OutlineStyle) (bits : Nat) (hbits : 32 < bits) (path : List ℂ) (hA : outlineArea e s [path] path < -1)
    (hR : RegularPath e k s [path] path) (hP : RingApart (outlineAdapter e s [path]).toInt path)
    (hroom : RoomFor s.outerOffset path) (r : List (Seg CountOff))
    (hr : nodedEdges k.st k.sr k.tree k.fuel (outlineEdges e s [path] path) = some r) (h2r : AtMostTwoRight (regionEdges r))
    (g : ℝ) (c : ℂ) (ein eout : ℝ) (ha : (outlineAdapter e s [path]).Good g c ein eout (OutlineReached e s [path]))
    (h0 : e.sqrToInt (outlineAdapter e s [path]) 0 = 0)
    (out : List (List (List ℂ))) (h : outlineDefault e k kb x s bits [path] = some out) :
    ∃ (outer holes : List (List Pt)) (shapes : List (List (List Pt))), out = toFloats (outlineAdapter e s [path]) shapes ∧
      (∀ c ∈ outer, WindsOnce 1 c) ∧ (∀ c ∈ holes, WindsOnce (-1) c) ∧ (outer ++ holes).Pairwise Nested ∧
      outerContours shapes = (outer.filter fun c => decide (KeptOff x.clean r 1 c)).map (fun c => (x.clean c).1) ∧
      (shapes = [] ∨ (holeContours shapes).Perm ((holes.filter fun c => decide (KeptOff x.clean r 1 c)).map fun c => (x.clean c).1)) ∧
      ∀ q, (∀ a b, OutlineSide (outlineAdapter e s [path]).toInt s.join s.outerOffset path a b →
          ¬ NearLine (roundingError k g ein) (fromGrid g c q) a b) →
        SimplyAround s.outerOffset path (fromGrid g c q) →
        polysWind (outer ++ holes) q =
          if OutlineCovers (outlineAdapter e s [path]).toInt s.join s.outerOffset path (fromGrid g c q) then 1 else 0 := by
  unfold outlineDefault at h
  rw [decide_eq_false (by omega)] at h
  obtain ⟨outer, holes, shapes, h1, h2, h3, h4, h5⟩ :=
    C77_single e k kb x ho s false 0 path hA hR hP hroom r hr h2r g c ein eout ha out h
  rw [h0] at h3 h4
  refine ⟨outer, holes, shapes, h1, h2.outerOnce, h2.holesOnce, h2.nested, h3, h4, fun q hq hS => ?_⟩
  have := (h5 q hq hS).1
  rw [show outerTurn false = 1 from rfl, one_mul] at this
  exact this

end

end IOverlay
