/-
C74: outlines with the styles of the API follow their paths (theorems).
-/
import Verif.Props.OutlineReach
import Verif.Props.OutlineMany

namespace IOverlay
open Complex

/-! ### specification -/

/-- Several paths: the result of each path is noded once more, with the others. -/
noncomputable def outlineError (k : OffConfig) (kb : Config) (g ein : ℝ) : ℝ :=
  roundingError k g ein + Real.sqrt 2 * (drift kb.sr kb.fuel : ℚ) / g

/-- The integer contours of the paths of an outline of several. -/
noncomputable def outlineParts (e : OutlineEnv) (k : OffConfig) (x : Externals) (s : OutlineStyle) (paths : List (List ℂ)) :
    Option (List (List (List Pt))) :=
  paths.mapM ((realOps (outlineAdapter e s paths).toInt s.join.normalize.ratio).outlinePart k x
    (outlineArea e s paths) s.params)

/-- A regular path no contour of whose region consists only of chords, and with no point the left end of more than two edges of
the boundary of the region. -/
structure SidedPath (e : OutlineEnv) (k : OffConfig) (s : OutlineStyle) (paths : List (List ℂ)) (path : List ℂ) : Prop
    extends RegularPath e k s paths path where
  sides : ∀ r, nodedEdges k.st k.sr k.tree k.fuel (outlineEdges e s paths path) = some r →
    SidedLoops r ∧ AtMostTwoRight (regionEdges r)

/-- The number of counterclockwise paths around a point, less the number of clockwise ones (paths of tiny area do not count). -/
noncomputable def coverCount (e : OutlineEnv) (s : OutlineStyle) (paths : List (List ℂ)) (q : QPt) : Int :=
  ((paths.filter fun path => decide (1 < (outlineArea e s paths path).natAbs)).map fun path =>
    (if outlineArea e s paths path < 0 then (1 : Int) else -1) *
      if 0 < orientedWind (outlineArea e s paths path) (gridPath e s paths path) q then 1 else 0).sum

/-- The result, converted to floating point. -/
noncomputable def toFloats (a : StrokeAdapter) (shapes : List (List (List Pt))) : List (List (List ℂ)) :=
  shapes.map fun sh => sh.map fun c => c.map a.toFloat

section
variable {e : OutlineEnv} {k : OffConfig} {kb : Config} {x : Externals} {s : OutlineStyle} {cw : Bool} {minArea : ℝ}
  {paths : List (List ℂ)} {path : List ℂ} {g : ℝ} {c : ℂ} {ein eout : ℝ}

/-! ### the integer result -/

theorem pathEdges_outer {a : Int} (ha : a < 0) (o : FloatOps ℝ ℂ) (p : OutlineParams ℝ) (path : List ℂ) :
    o.pathEdges p a path = o.outlineSegments p.outerRadius p.outerJoin path := by
  unfold FloatOps.pathEdges OutlineParams.radius OutlineParams.joinFor alongPath
  rw [if_pos ha, if_pos ha, if_pos ha]

theorem pathEdges_inner {a : Int} (ha : ¬ a < 0) (o : FloatOps ℝ ℂ) (p : OutlineParams ℝ) (path : List ℂ) :
    o.pathEdges p a path = o.outlineSegments p.innerRadius p.innerJoin path.reverse := by
  unfold FloatOps.pathEdges OutlineParams.radius OutlineParams.joinFor alongPath
  rw [if_neg ha, if_neg ha, if_neg ha]

/-- The result for a single path. -/
theorem outlineCustom_single {out : List (List (List ℂ))} (h : outlineCustom e k kb x s cw minArea false [path] = some out) :
    ∃ shapes, out = toFloats (outlineAdapter e s [path]) shapes ∧
      ((shapes = [] ∧ -1 ≤ outlineArea e s [path] path) ∨
        (outlineArea e s [path] path < -1 ∧ offsetShapes k x cw (max (e.sqrToInt (outlineAdapter e s [path]) minArea) 1)
          (outlineEdges e s [path] path) = some shapes)) := by
  unfold outlineCustom at h
  dsimp only at h
  split at h
  · next hn =>
    refine ⟨[], (Option.some.inj h).symm, Or.inl ⟨rfl, ?_⟩⟩
    unfold outlineNothing at hn
    unfold outlineArea
    simpa using hn
  · next hn =>
    obtain ⟨shapes, h1, h2⟩ := Option.map_eq_some_iff.1 h
    refine ⟨shapes, h2.symm, Or.inr ?_⟩
    unfold outlineNothing at hn
    simp only [decide_eq_true_eq, not_le] at hn
    refine ⟨hn, ?_⟩
    unfold FloatOps.outline at h1
    dsimp only at h1
    rw [if_neg (not_le.2 hn)] at h1
    unfold outlineEdges
    rw [pathEdges_outer (by unfold outlineArea; omega)]
    exact h1

/-- The result for several paths. -/
theorem outlineCustom_many (hlen : 2 ≤ paths.length) {out : List (List (List ℂ))}
    (h : outlineCustom e k kb x s cw minArea false paths = some out) :
    ∃ shapes parts, out = toFloats (outlineAdapter e s paths) shapes ∧ outlineParts e k x s paths = some parts ∧
      overlayCustom kb x .subject .positive cw (max (e.sqrToInt (outlineAdapter e s paths) minArea) 1)
        (overlaySegments parts.flatten []) = some shapes := by
  have hn : outlineNothing (e.area (outlineAdapter e s paths)) paths = false := by
    unfold outlineNothing
    split
    · simp at hlen
    · simp at hlen
    · rfl
  unfold outlineCustom at h
  dsimp only at h
  rw [hn] at h
  obtain ⟨shapes, h1, h2⟩ := Option.map_eq_some_iff.1 h
  unfold FloatOps.outline at h1
  split at h1
  · simp at hlen
  · simp at hlen
  · obtain ⟨parts, h3, h4⟩ := Option.bind_eq_some_iff.1 h1
    exact ⟨shapes, parts, h2.symm, h3, h4⟩

/-- The part of a path. -/
theorem outlinePart_of {part : List (List Pt)}
    (h : (realOps (outlineAdapter e s paths).toInt s.join.normalize.ratio).outlinePart k x (outlineArea e s paths) s.params path =
      some part) :
    ((outlineArea e s paths path).natAbs ≤ 1 ∧ part = []) ∨ (1 < (outlineArea e s paths path).natAbs ∧
      ∃ shapes, offsetShapes k x false 0 (outlineEdges e s paths path) = some shapes ∧
        part = if outlineArea e s paths path < 0 then shapes.flatten else shapes.flatten.map List.reverse) := by
  unfold FloatOps.outlinePart at h
  split at h
  · next h1 => exact Or.inl ⟨h1, (Option.some.inj h).symm⟩
  · next h1 =>
    refine Or.inr ⟨not_le.1 h1, ?_⟩
    unfold outlineEdges
    split at h
    · next h2 =>
      obtain ⟨shapes, h3, h4⟩ := Option.map_eq_some_iff.1 h
      exact ⟨shapes, by rw [pathEdges_outer h2]; exact h3, by rw [if_pos h2]; exact h4.symm⟩
    · next h2 =>
      obtain ⟨shapes, h3, h4⟩ := Option.map_eq_some_iff.1 h
      exact ⟨shapes, by rw [pathEdges_inner h2]; exact h3, by rw [if_neg h2]; exact h4.symm⟩

/-! ### converted edges -/

theorem floats_near (ha : (outlineAdapter e s paths).Good g c ein eout (OutlineReached e s paths)) {S : Set ℂ} (hS : IsClosed S)
    {shapes : List (List (List Pt))} (h : ∀ t ∈ shapes.flatten, ∀ d ∈ polyEdges t, InRange d.1 ∧ InRange d.2 ∧
      ∀ q, onSeg q d.1 d.2 → fromGrid g c q ∈ S) :
    ∀ d ∈ (toFloats (outlineAdapter e s paths) shapes).flatten, ∀ w ∈ cycleEdges d, ∀ z ∈ segment ℝ w.1 w.2,
      ∃ z' ∈ S, ‖z - z'‖ ≤ eout := by
  intro d' hd' w' hw' z hz
  have e1 : (toFloats (outlineAdapter e s paths) shapes).flatten =
      shapes.flatten.map fun d => d.map (outlineAdapter e s paths).toFloat := by
    unfold toFloats; rw [List.map_flatten]
  rw [e1] at hd'
  obtain ⟨d, hdm, rfl⟩ := List.mem_map.1 hd'
  rw [cycleEdges_map] at hw'
  obtain ⟨w, hw, rfl⟩ := List.mem_map.1 hw'
  rw [← polyEdges_cycle] at hw
  obtain ⟨r1, r2, r3⟩ := h d hdm w hw
  exact converted_near ha.pos hS r3 (ha.toFloat _ r1) (ha.toFloat _ r2) hz

theorem isClosed_nearPath (d : ℝ) (closed : Bool) (path : List ℂ) : IsClosed {z | NearPath d closed path z} := by
  have := isClosed_nearPaths d closed [path]
  simpa using this

/-! ### C74, a single path -/

/-- C74 (boundary, one path): every point of every returned edge is within the offset of the path, times the factor of the
joins, up to rounding. -/
theorem C74_single_edges (e : OutlineEnv) (k : OffConfig) (kb : Config) (x : Externals) (ho : OffAssumed k x)
    (hcl : CleanEdges x.clean) (s : OutlineStyle) (cw : Bool) (minArea : ℝ) (path : List ℂ) (hR : RegularPath e k s [path] path)
    (g : ℝ) (c : ℂ) (ein eout : ℝ) (ha : (outlineAdapter e s [path]).Good g c ein eout (OutlineReached e s [path]))
    (out : List (List (List ℂ))) (h : outlineCustom e k kb x s cw minArea false [path] = some out) :
    ∀ d ∈ out.flatten, ∀ w ∈ cycleEdges d, ∀ z ∈ segment ℝ w.1 w.2,
      NearPath (s.join.reach |s.outerOffset| + roundingError k g ein + eout) true path z := by
  obtain ⟨shapes, rfl, h2⟩ := outlineCustom_single h
  rcases h2 with ⟨rfl, -⟩ | ⟨hA, h2⟩
  · simp [toFloats]
  have hreach : s.pathReach (outlineArea e s [path] path) = s.join.reach |s.outerOffset| := by
    unfold OutlineStyle.pathReach; rw [if_pos (by omega)]
  have hn := outlineShapes_near ho hcl (List.mem_singleton.2 rfl) hR ha h2
  rw [hreach] at hn
  intro d hd w hw z hz
  obtain ⟨z', h3, h4⟩ := floats_near ha (isClosed_nearPath (s.join.reach |s.outerOffset| + roundingError k g ein) true path)
    (fun t ht d hd => (hn t ht d hd).2) d hd w hw z hz
  exact NearPath.moved h3 h4

open Classical in
/-- C74 (region, one path): the outline consists of those contours of a region that have an edge on a drawn side and are large
enough (as C52), and this region differs from the interior of the path only near the path: farther than the offset (times the
factor of the joins, up to rounding) the contours wind once around exactly the points around which the path winds positively.
So the returned contours do, if none is dropped. -/
theorem C74_single_region (e : OutlineEnv) (k : OffConfig) (kb : Config) (x : Externals) (ho : OffAssumed k x)
    (s : OutlineStyle) (cw : Bool) (minArea : ℝ) (path : List ℂ) (hA : outlineArea e s [path] path < -1)
    (hR : RegularPath e k s [path] path) (r : List (Seg CountOff))
    (hr : nodedEdges k.st k.sr k.tree k.fuel (outlineEdges e s [path] path) = some r) (h2r : AtMostTwoRight (regionEdges r))
    (g : ℝ) (c : ℂ) (ein eout : ℝ) (ha : (outlineAdapter e s [path]).Good g c ein eout (OutlineReached e s [path]))
    (out : List (List (List ℂ))) (h : outlineCustom e k kb x s cw minArea false [path] = some out) :
    ∃ (outer holes : List (List Pt)) (shapes : List (List (List Pt))), out = toFloats (outlineAdapter e s [path]) shapes ∧
      OffsetContours cw r outer holes ∧
      outerContours shapes = (outer.filter fun c => decide (KeptOff x.clean r
        (max (e.sqrToInt (outlineAdapter e s [path]) minArea) 1) c)).map (fun c => (x.clean c).1) ∧
      (shapes = [] ∨ (holeContours shapes).Perm ((holes.filter fun c => decide (KeptOff x.clean r
        (max (e.sqrToInt (outlineAdapter e s [path]) minArea) 1) c)).map fun c => (x.clean c).1)) ∧
      ∀ q, ¬ NearPath (s.join.reach |s.outerOffset| + roundingError k g ein) true path (fromGrid g c q) →
        polysWind (outer ++ holes) q = outerTurn cw * (if 0 < polyWind (gridPath e s [path] path) q then 1 else 0) ∧
        ((∀ c ∈ outer ++ holes, KeptOff x.clean r (max (e.sqrToInt (outlineAdapter e s [path]) minArea) 1) c) →
          polysWind shapes.flatten q = outerTurn cw * if 0 < polyWind (gridPath e s [path] path) q then 1 else 0) := by
  obtain ⟨shapes, rfl, h2⟩ := outlineCustom_single h
  rcases h2 with ⟨-, h3⟩ | ⟨-, h2⟩
  · omega
  have hreach : s.pathReach (outlineArea e s [path] path) = s.join.reach |s.outerOffset| := by
    unfold OutlineStyle.pathReach; rw [if_pos (by omega)]
  obtain ⟨outer, holes, c1, c2, c3, -⟩ := offset_contours ho (allTraced_outline _ _ _ _) (C48_outline _ _ _ _) hR.edges hR.frag hr
    h2r h2
  refine ⟨outer, holes, shapes, rfl, c1, c2, c3, fun q hq => ?_⟩
  have hw : polysWind (outer ++ holes) q = outerTurn cw * if 0 < polyWind (gridPath e s [path] path) q then 1 else 0 := by
    rw [c1.wind q, outlineNoded_far ho (List.mem_singleton.2 rfl) hR ha hr q (by rw [hreach]; exact hq)]
    have hneg : outlineArea e s [path] path < 0 := by omega
    unfold orientedWind
    rw [if_pos hneg, one_mul]
  refine ⟨hw, fun hk => ?_⟩
  rw [List.filter_eq_self.2 fun c hc => decide_eq_true (hk c (by simp [hc]))] at c2
  rw [List.filter_eq_self.2 fun c hc => decide_eq_true (hk c (by simp [hc]))] at c3
  rw [kept_wind ho.clean c1.holesOnce (fun q => ?_) c2 c3 q, hw]
  rw [c1.wind q]
  split
  · exact ⟨1, by simp⟩
  · exact ⟨0, by simp⟩

/-! ### C74, several paths -/

theorem forall₂_flatten_mem {α β : Type} {R : α → List β → Prop} {l : List α} {m : List (List β)} (h : List.Forall₂ R l m) {y : β}
    (hy : y ∈ m.flatten) : ∃ a ∈ l, ∃ b, R a b ∧ y ∈ b := by
  induction h with
  | nil => simp at hy
  | @cons a b l m h1 _ ih =>
    rw [List.flatten_cons, List.mem_append] at hy
    rcases hy with hy | hy
    · exact ⟨a, by simp, b, h1, hy⟩
    · obtain ⟨a', h2, h3⟩ := ih hy
      exact ⟨a', by simp [h2], h3⟩

/-- The parts stay near their paths. -/
theorem outlineParts_near (ho : OffAssumed k x) (hcl : CleanEdges x.clean)
    (hR : ∀ path, Counted e s paths path → RegularPath e k s paths path)
    (ha : (outlineAdapter e s paths).Good g c ein eout (OutlineReached e s paths)) {parts : List (List (List Pt))}
    (hparts : outlineParts e k x s paths = some parts) :
    ∀ t ∈ parts.flatten, ∀ d ∈ polyEdges t, d.1 ≠ d.2 ∧ InRange d.1 ∧ InRange d.2 ∧
      ∃ path, Counted e s paths path ∧ ∀ q, onSeg q d.1 d.2 →
        NearPath (s.pathReach (outlineArea e s paths path) + roundingError k g ein) true path (fromGrid g c q) := by
  intro t ht d hd
  obtain ⟨path, hp, part, h1, h2⟩ := forall₂_flatten_mem (mapM_forall₂ hparts) ht
  rcases outlinePart_of h1 with ⟨-, rfl⟩ | ⟨hA, shapes, h3, rfl⟩
  · simp at h2
  have hC : Counted e s paths path := ⟨hp, hA⟩
  have hn := outlineShapes_near ho hcl hp (hR path hC) ha h3
  split at h2
  · obtain ⟨n1, n2, n3, n4⟩ := hn t h2 d hd
    exact ⟨n1, n2, n3, path, hC, n4⟩
  · obtain ⟨t', h4, rfl⟩ := List.mem_map.1 h2
    rw [(polyEdges_reverse t').mem_iff] at hd
    obtain ⟨d', hd', rfl⟩ := List.mem_map.1 hd
    obtain ⟨n1, n2, n3, n4⟩ := hn t' h4 d' hd'
    exact ⟨n1.symm, n3, n2, path, hC, fun q hq => n4 q (onSeg_symm hq)⟩

theorem vertex_edge {t : List Pt} {p : Pt} (h : p ∈ t) : ∃ d ∈ polyEdges t, d.2 = p := by
  obtain ⟨d, hd, h2⟩ := List.mem_map.1 ((polyEdges_snd t).mem_iff.2 h)
  exact ⟨d, hd, h2⟩

theorem parts_range {parts : List (List Pt)} {P : Pt → Pt → Prop}
    (h : ∀ t ∈ parts, ∀ d ∈ polyEdges t, d.1 ≠ d.2 ∧ InRange d.1 ∧ InRange d.2 ∧ P d.1 d.2) :
    (∀ t ∈ parts ++ [], NotClosedExplicitly t) ∧ ∀ t ∈ parts ++ [], ∀ p ∈ t, InRange p := by
  rw [List.append_nil]
  refine ⟨fun t ht => notClosed_of_edges fun d hd => (h t ht d hd).1, fun t ht p hp => ?_⟩
  obtain ⟨d, hd, rfl⟩ := vertex_edge hp
  exact (h t ht d hd).2.2.1

/-- What is close to an edge of a part is close to a path. -/
theorem within_part (hg : 0 < g) {r : ℚ} {D : ℝ} {a b : Pt} (h : ∀ q, onSeg q a b → NearPath D true path (fromGrid g c q)) {q : QPt}
    (hq : Within r q a b) : NearPath (D + Real.sqrt 2 * r / g) true path (fromGrid g c q) := by
  obtain ⟨p, hp, p1, p2⟩ := hq
  exact (h p hp).moved (fromGrid_close hg c p1 p2)

/-- C74 (boundary, several paths): every point of every returned edge is within the offset of one of the paths (the outer offset
for counterclockwise paths, the inner one for holes), times the factor of the joins, up to rounding. -/
theorem C74_many_edges (e : OutlineEnv) (k : OffConfig) (kb : Config) (x : Externals) (ho : OffAssumed k x) (hb : Assumed kb x)
    (hcl : CleanAssumed x) (s : OutlineStyle) (cw : Bool) (minArea : ℝ) (paths : List (List ℂ)) (hlen : 2 ≤ paths.length)
    (hR : ∀ path, Counted e s paths path → RegularPath e k s paths path)
    (hf : ∀ parts, outlineParts e k x s paths = some parts → FragFor kb parts.flatten [])
    (g : ℝ) (c : ℂ) (ein eout : ℝ) (ha : (outlineAdapter e s paths).Good g c ein eout (OutlineReached e s paths))
    (out : List (List (List ℂ))) (h : outlineCustom e k kb x s cw minArea false paths = some out) :
    ∀ d ∈ out.flatten, ∀ w ∈ cycleEdges d, ∀ z ∈ segment ℝ w.1 w.2, ∃ path, Counted e s paths path ∧
      NearPath (s.pathReach (outlineArea e s paths path) + outlineError k kb g ein + eout) true path z := by
  obtain ⟨shapes, parts, rfl, hparts, h2⟩ := outlineCustom_many hlen h
  have hn := outlineParts_near ho hcl.edges hR ha hparts
  obtain ⟨p1, p2⟩ := parts_range (parts := parts.flatten)
    (P := fun a b => ∃ path, Counted e s paths path ∧ ∀ q, onSeg q a b →
      NearPath (s.pathReach (outlineArea e s paths path) + roundingError k g ein) true path (fromGrid g c q)) hn
  have hedges := C63_edges hb (hf parts hparts) hcl p1 p2 (Or.inl h2)
  have hrange := C44_overlay kb x hb hcl.points .subject .positive cw _ parts.flatten [] (hf parts hparts)
    (-2 ^ 30 + 1) (2 ^ 30 - 1) (-2 ^ 30 + 1) (2 ^ 30 - 1)
    (fun t ht p hp => ⟨p2 t ht p hp, by have := p2 t ht p hp; unfold InRange at this; unfold InRect; omega⟩) shapes h2
  have hrange : ∀ t ∈ shapes.flatten, ∀ p ∈ t, InRange p := by
    intro t ht p hp
    obtain ⟨sh, h3, h4⟩ := List.mem_flatten.1 ht
    have := hrange sh h3 t h4 p hp
    unfold InRect at this
    unfold InRange
    omega
  have hS : IsClosed {z | ∃ path, Counted e s paths path ∧
      NearPath (s.pathReach (outlineArea e s paths path) + outlineError k kb g ein) true path z} := by
    have hfin : {path | Counted e s paths path}.Finite :=
      (List.finite_toSet paths).subset fun path h => h.1
    have : {z | ∃ path, Counted e s paths path ∧
      NearPath (s.pathReach (outlineArea e s paths path) + outlineError k kb g ein) true path z} =
        ⋃ path ∈ {path | Counted e s paths path},
          {z | NearPath (s.pathReach (outlineArea e s paths path) + outlineError k kb g ein) true path z} := by
      ext z; simp
    rw [this]
    exact hfin.isClosed_biUnion fun path _ => isClosed_nearPath _ _ _
  have hall : ∀ t ∈ shapes.flatten, ∀ d ∈ polyEdges t, InRange d.1 ∧ InRange d.2 ∧
      ∀ q, onSeg q d.1 d.2 → fromGrid g c q ∈ {z | ∃ path, Counted e s paths path ∧
        NearPath (s.pathReach (outlineArea e s paths path) + outlineError k kb g ein) true path z} := by
    intro t ht d hd
    obtain ⟨m1, m2⟩ := polyEdges_mem hd
    refine ⟨hrange t ht _ m1, hrange t ht _ m2, fun q hq => ?_⟩
    obtain ⟨d', hd', hw'⟩ := hedges t ht d hd q hq
    rw [List.append_nil, List.mem_flatMap] at hd'
    obtain ⟨t', ht', hd'⟩ := hd'
    obtain ⟨-, -, -, path, h6, h7⟩ := hn t' ht' d' hd'
    refine ⟨path, h6, ?_⟩
    have := within_part ha.pos h7 hw'
    unfold outlineError
    rw [← add_assoc]
    exact this
  intro d hd w hw z hz
  obtain ⟨z', ⟨path, h3, h4⟩, h5⟩ := floats_near ha hS hall d hd w hw z hz
  exact ⟨path, h3, h4.moved h5⟩

/-- The parts count paths around far points. -/
theorem outlineParts_wind (ho : OffAssumed k x) (hR : ∀ path, Counted e s paths path → SidedPath e k s paths path)
    (ha : (outlineAdapter e s paths).Good g c ein eout (OutlineReached e s paths)) {parts : List (List (List Pt))}
    (hparts : outlineParts e k x s paths = some parts) (q : QPt) (hq : ∀ path, Counted e s paths path →
      ¬ NearPath (s.pathReach (outlineArea e s paths path) + roundingError k g ein) true path (fromGrid g c q)) :
    polysWind parts.flatten q = coverCount e s paths q := by
  have hf := mapM_forall₂ hparts
  unfold coverCount
  have key : ∀ (l : List (List ℂ)) (m : List (List (List Pt))), (∀ path ∈ l, path ∈ paths) →
      List.Forall₂ (fun path part => (realOps (outlineAdapter e s paths).toInt s.join.normalize.ratio).outlinePart k x
        (outlineArea e s paths) s.params path = some part) l m →
      polysWind m.flatten q = ((l.filter fun path => decide (1 < (outlineArea e s paths path).natAbs)).map fun path =>
    (if outlineArea e s paths path < 0 then (1 : Int) else -1) *
      if 0 < orientedWind (outlineArea e s paths path) (gridPath e s paths path) q then 1 else 0).sum := by
    intro l m hl h
    induction h with
    | nil => rfl
    | @cons path part ls rs h1 _ ih =>
      have hi := ih fun p hp => hl p (by simp [hp])
      have happ : polysWind (part :: rs).flatten q = polysWind part q + polysWind rs.flatten q := by
        unfold polysWind; rw [List.flatten_cons, List.map_append, List.sum_append]
      rw [happ, hi]
      rcases outlinePart_of h1 with ⟨hA, rfl⟩ | ⟨hA, shapes, h3, rfl⟩
      · rw [List.filter_cons_of_neg (by simpa using hA)]
        simp [polysWind]
      · rw [List.filter_cons_of_pos (by simpa using hA), List.map_cons, List.sum_cons]
        congr 1
        have hC : Counted e s paths path := ⟨hl path (by simp), hA⟩
        have hs := hR path hC
        obtain ⟨r, hr⟩ := offset_noded h3
        obtain ⟨d1, d2⟩ := hs.sides r hr
        have main := offset_sides ho (allTraced_outline _ _ _ _) (C48_outline _ _ _ _) hs.edges hs.frag hr d2 d1 h3 q
        rw [outlineNoded_far ho hC.1 hs.toRegularPath ha hr q (hq path hC)] at main
        have e1 : outerTurn false = 1 := rfl
        rw [e1, one_mul] at main
        split
        · rw [main, one_mul]
        · rw [polysWind_reverses, main, neg_one_mul]
  exact key paths parts (fun _ h => h) hf

open Classical in
/-- C74 (region, several paths): the outline consists of those contours of a region that are large enough (as C52), and this
region is, farther from the paths than the offsets (times the factor of the joins, up to rounding), exactly what lies in more
counterclockwise paths than clockwise ones. So the returned contours wind once around exactly these points, if none is dropped. -/
theorem C74_many_region (e : OutlineEnv) (k : OffConfig) (kb : Config) (x : Externals) (ho : OffAssumed k x) (hb : Assumed kb x)
    (hcl : CleanAssumed x) (s : OutlineStyle) (cw : Bool) (minArea : ℝ) (paths : List (List ℂ)) (hlen : 2 ≤ paths.length)
    (hR : ∀ path, Counted e s paths path → SidedPath e k s paths path) (parts : List (List (List Pt)))
    (hparts : outlineParts e k x s paths = some parts) (hf : FragFor kb parts.flatten []) (links : List Link)
    (hl : buildBoolean (isIncluded .subject) .positive kb.st kb.sr kb.tree kb.scan kb.fuel
      (overlaySegments parts.flatten []) = some links)
    (h2l : AtMostTwoRight (links.map fun l => (l.a, l.b)))
    (g : ℝ) (c : ℂ) (ein eout : ℝ) (ha : (outlineAdapter e s paths).Good g c ein eout (OutlineReached e s paths))
    (out : List (List (List ℂ))) (h : outlineCustom e k kb x s cw minArea false paths = some out) :
    ∃ (outer holes : List (List Pt)) (shapes : List (List (List Pt))), out = toFloats (outlineAdapter e s paths) shapes ∧
      (∀ c ∈ outer, WindsOnce (outerTurn cw) c) ∧ (∀ c ∈ holes, WindsOnce (- outerTurn cw) c) ∧
      (outer ++ holes).Pairwise Nested ∧
      outerContours shapes = (outer.filter fun c => decide (LargeEnough
        (max (e.sqrToInt (outlineAdapter e s paths) minArea) 1) (x.clean c).1)).map (fun c => (x.clean c).1) ∧
      (shapes = [] ∨ (holeContours shapes).Perm ((holes.filter fun c => decide (LargeEnough
        (max (e.sqrToInt (outlineAdapter e s paths) minArea) 1) (x.clean c).1)).map fun c => (x.clean c).1)) ∧
      ∀ q, (∀ path, Counted e s paths path →
          ¬ NearPath (s.pathReach (outlineArea e s paths path) + outlineError k kb g ein) true path (fromGrid g c q)) →
        polysWind (outer ++ holes) q = outerTurn cw * (if 0 < coverCount e s paths q then 1 else 0) ∧
        ((∀ c ∈ outer ++ holes, LargeEnough (max (e.sqrToInt (outlineAdapter e s paths) minArea) 1) (x.clean c).1) →
          polysWind shapes.flatten q = outerTurn cw * if 0 < coverCount e s paths q then 1 else 0) := by
  obtain ⟨shapes, parts', rfl, hparts', h2⟩ := outlineCustom_many hlen h
  rw [hparts] at hparts'
  obtain rfl := Option.some.inj hparts'
  have hn := outlineParts_near ho hcl.edges (fun p hp => (hR p hp).toRegularPath) ha hparts
  obtain ⟨p1, p2⟩ := parts_range (parts := parts.flatten)
    (P := fun a b => ∃ path, Counted e s paths path ∧ ∀ q, onSeg q a b →
      NearPath (s.pathReach (outlineArea e s paths path) + roundingError k g ein) true path (fromGrid g c q)) hn
  obtain ⟨segs, outer, holes, c1, c2, c3, c4, c5, c6, c7, c8, -⟩ :=
    C24_contours kb x hb .subject .positive cw _ parts.flatten [] hf links hl h2l shapes h2
  have hd := (noded_drift hb.tree hf (fun c hc => p1 c (List.mem_append_left _ hc)) (by simp) p2 c1).1
  refine ⟨outer, holes, shapes, rfl, c4, c5, c6, c7, c8, fun q hq => ?_⟩
  have hfar : ∀ path, Counted e s paths path →
      ¬ NearPath (s.pathReach (outlineArea e s paths path) + roundingError k g ein) true path (fromGrid g c q) := by
    intro path hC hnear
    refine hq path hC (hnear.mono ?_)
    unfold outlineError
    have hg := ha.pos
    have : (0 : ℝ) ≤ drift kb.sr kb.fuel := by exact_mod_cast drift_nonneg kb.fuel kb.sr
    have : 0 ≤ Real.sqrt 2 * (drift kb.sr kb.fuel : ℚ) / g := by positivity
    linarith
  have hw : polysWind (outer ++ holes) q = outerTurn cw * if 0 < coverCount e s paths q then 1 else 0 := by
    rw [c3 q, (hd q ?_).1, outlineParts_wind ho hR ha hparts q hfar]
    · simp [OverlayRule.op, FillRule.inside]
    · intro d hdm hw
      rw [List.append_nil, List.mem_flatMap] at hdm
      obtain ⟨t, ht, hdm⟩ := hdm
      obtain ⟨-, -, -, path, h6, h7⟩ := hn t ht d hdm
      refine hq path h6 ?_
      have := within_part ha.pos h7 hw
      unfold outlineError
      rw [← add_assoc]
      exact this
  refine ⟨hw, fun hk => ?_⟩
  rw [List.filter_eq_self.2 fun c hc => decide_eq_true (hk c (by simp [hc]))] at c7
  rw [List.filter_eq_self.2 fun c hc => decide_eq_true (hk c (by simp [hc]))] at c8
  rw [kept_wind ho.clean c5 (fun q => ?_) c7 c8 q, hw]
  rw [c3 q]
  split
  · exact ⟨1, by simp⟩
  · exact ⟨0, by simp⟩

/-! ### the rectangle of the adapter -/

theorem join_reach_outline (j : LineJoin) (ρ r : ℝ) (hr : |r| = |ρ|) : j.reach |ρ| ≤ |j.normalize.oOffset ρ r| := by
  have flat : |ρ| ≤ |1.1 * r| := by
    rw [abs_mul, hr, abs_of_pos (by norm_num : (0 : ℝ) < 1.1)]
    have := abs_nonneg ρ
    linarith
  cases j with
  | bevel => exact flat
  | round a => exact flat
  | miter a =>
    refine le_trans ?_ (le_abs_self _)
    show |ρ| / Real.sin (clampR a (0.01 * Real.pi) (0.99 * Real.pi) / 2) ≤ _
    unfold LineJoin.normalize LineJoin.oOffset
    dsimp only
    set A := clampR a (0.01 * Real.pi) (0.99 * Real.pi) with hA
    have hpi := Real.two_le_pi
    have h1 : 0.01 * Real.pi ≤ A := le_max_left _ _
    have h2 : A ≤ 0.99 * Real.pi := max_le (by nlinarith) (min_le_right _ _)
    have h3 : max A 0.01 = A := max_eq_left (by nlinarith)
    rw [h3]
    have e : 0.5 * A = A / 2 := by ring
    rw [e]
    have hs : 0 < Real.sin (A / 2) := Real.sin_pos_of_pos_of_lt_pi (by nlinarith) (by nlinarith)
    have hc : 0 < Real.cos (A / 2) := Real.cos_pos_of_mem_Ioo ⟨by nlinarith, by nlinarith⟩
    have e2 : |ρ| * |ρ| + |ρ| / Real.tan (A / 2) * (|ρ| / Real.tan (A / 2)) = (|ρ| / Real.sin (A / 2)) ^ 2 := by
      rw [Real.tan_eq_sin_div_cos]
      have := Real.sin_sq_add_cos_sq (A / 2)
      field_simp
      nlinarith
    have h0 := abs_nonneg ρ
    rw [e2, Real.sqrt_sq (by positivity)]
    have : 0 ≤ |ρ| / Real.sin (A / 2) := by positivity
    linarith

theorem pathReach_additional (s : OutlineStyle) (a : Int) : s.pathReach a ≤ s.additional := by
  have h1 := join_reach_outline s.join (-s.outerOffset) s.outerOffset (abs_neg _).symm
  have h2 := join_reach_outline s.join s.innerOffset s.innerOffset rfl
  rw [abs_neg] at h1
  have p1 := abs_nonneg (s.join.normalize.oOffset (-s.outerOffset) s.outerOffset)
  have p2 := abs_nonneg (s.join.normalize.oOffset s.innerOffset s.innerOffset)
  unfold OutlineStyle.pathReach OutlineStyle.additional
  split <;> linarith

open Classical in
/-- C74 (default): `outline` without further arguments, for coordinates of more than 32 bits, of a single path: the outer contours
run counterclockwise, no minimum area is applied but that of a single grid cell, nothing is cleaned. -/
theorem C74_default (e : OutlineEnv) (k : OffConfig) (kb : Config) (x : Externals) (ho : OffAssumed k x)
    (s : OutlineStyle) (bits : Nat) (hbits : 32 < bits) (path : List ℂ) (hA : outlineArea e s [path] path < -1)
    (hR : RegularPath e k s [path] path) (r : List (Seg CountOff))
    (hr : nodedEdges k.st k.sr k.tree k.fuel (outlineEdges e s [path] path) = some r) (h2r : AtMostTwoRight (regionEdges r))
    (g : ℝ) (c : ℂ) (ein eout : ℝ) (ha : (outlineAdapter e s [path]).Good g c ein eout (OutlineReached e s [path]))
    (h0 : e.sqrToInt (outlineAdapter e s [path]) 0 = 0)
    (out : List (List (List ℂ))) (h : outlineDefault e k kb x s bits [path] = some out) :
    ∃ (outer holes : List (List Pt)) (shapes : List (List (List Pt))), out = toFloats (outlineAdapter e s [path]) shapes ∧
      (∀ c ∈ outer, WindsOnce 1 c) ∧ (∀ c ∈ holes, WindsOnce (-1) c) ∧ (outer ++ holes).Pairwise Nested ∧
      outerContours shapes = (outer.filter fun c => decide (KeptOff x.clean r 1 c)).map (fun c => (x.clean c).1) ∧
      (shapes = [] ∨ (holeContours shapes).Perm ((holes.filter fun c => decide (KeptOff x.clean r 1 c)).map fun c => (x.clean c).1)) ∧
      ∀ q, ¬ NearPath (s.join.reach |s.outerOffset| + roundingError k g ein) true path (fromGrid g c q) →
        polysWind (outer ++ holes) q = if 0 < polyWind (gridPath e s [path] path) q then 1 else 0 := by
  unfold outlineDefault at h
  rw [decide_eq_false (by omega)] at h
  obtain ⟨outer, holes, shapes, h1, h2, h3, h4, h5⟩ :=
    C74_single_region e k kb x ho s false 0 path hA hR r hr h2r g c ein eout ha out h
  rw [h0] at h3 h4
  refine ⟨outer, holes, shapes, h1, h2.outerOnce, h2.holesOnce, h2.nested, h3, h4, fun q hq => ?_⟩
  have := (h5 q hq).1
  rw [show outerTurn false = 1 from rfl, one_mul] at this
  exact this

/-- C74: the adapter is only needed on the rectangle it was made for. -/
theorem C74_rectangle (e : OutlineEnv) (s : OutlineStyle) (paths : List (List ℂ)) (a : StrokeAdapter) (g : ℝ) (c : ℂ)
    (ein eout : ℝ) (h : a.Good g c ein eout (outlineRect s paths).Has) : a.Good g c ein eout (OutlineReached e s paths) := by
  refine ⟨h.pos, fun z hz => h.toInt z ?_, h.toFloat⟩
  obtain ⟨path, hp, u, hu, hz⟩ := hz
  have ho := pathReach_additional s (outlineArea e s paths path)
  have h1 := (Complex.abs_re_le_norm (z - u)).trans (hz.trans ho)
  have h2 := (Complex.abs_im_le_norm (z - u)).trans (hz.trans ho)
  rw [Complex.sub_re, abs_le] at h1
  rw [Complex.sub_im, abs_le] at h2
  have hu : u ∈ paths.flatten := List.mem_flatten.2 ⟨path, hp, hu⟩
  cases hr : rectOf paths.flatten with
  | none =>
    cases hf : paths.flatten with
    | nil => rw [hf] at hu; cases hu
    | cons p ps => rw [hf] at hr; cases hr
  | some r =>
    obtain ⟨b1, b2, b3, b4⟩ := rectOf_has hr u hu
    unfold outlineRect FRect.Has FRect.addOffset
    rw [hr]
    dsimp only [Option.getD_some]
    refine ⟨by linarith, by linarith, by linarith, by linarith⟩

end

end IOverlay
