/-
C70: floating point overlays are right except close to the given edges.
-/
import Verif.FloatWind
import Verif.Props.Float
import Verif.Props.Drift

namespace IOverlay
variable {P T : Type}

/-! ### specification -/

/-- Contract of the adapter (external): coordinates are scaled by `s > 0` around `c`; rounding to integers moves the given
points by at most `ein` units (1/2 plus floating point error), converting integers back by at most `eout`. `val` is
the exact value of a floating point point. -/
structure Adapter.Faithful (a : Adapter P T) (val : P → QPt) (s : ℚ) (c : QPt) (ein eout : ℚ) (pts : List P) : Prop where
  pos : 0 < s
  ein0 : 0 ≤ ein
  eout0 : 0 ≤ eout
  toInt : ∀ p ∈ pts, Close ein (a.toInt p).q (rescale s c (val p))
  toFloat : ∀ z : Pt, InRange z → Close eout (rescale s c (val (a.toFloat z))) z.q

/-- `out` is returned for these contours, in one shot or from a prebuilt graph. -/
def IsFloatResult (e : FloatEnv P T) (k : Config) (x : Bool → Externals) (subj clip : Resource P) (r : OverlayRule)
    (rule : FillRule) (cw : Bool) (f : ContourFilter T) (out : List (List (List P))) : Prop :=
  ((FloatOverlay.withSubjAndClip e subj clip).bind fun o => o.overlayCustom e k x r rule cw f) = some out ∨
  (((FloatOverlay.withSubjAndClip e subj clip).bind fun o => o.intoGraph k (x f.simplifyContour) rule).bind fun g =>
    g.extractShapesCustom e x r cw f) = some out

/-! ### proofs -/

theorem cycleEdges_mem {α : Type} {l : List α} {e : α × α} (h : e ∈ cycleEdges l) : e.1 ∈ l ∧ e.2 ∈ l := by
  cases l with
  | nil => simp [cycleEdges] at h
  | cons p ps =>
    obtain ⟨u, v⟩ := e
    have := List.of_mem_zip h
    refine ⟨this.1, ?_⟩
    rcases List.mem_append.1 this.2 with h | h
    · exact List.mem_cons_of_mem _ h
    · rw [List.mem_singleton.1 h]; exact List.mem_cons_self

/-- The integer operation behind a floating point one. -/
theorem IsFloatResult.int {e : FloatEnv P T} {k : Config} {x : Bool → Externals} {subj clip : Resource P} {r : OverlayRule}
    {rule : FillRule} {cw : Bool} {f : ContourFilter T} {out : List (List (List P))} (hclean : f.cleanResult = false)
    (h : IsFloatResult e k x subj clip r rule cw f out) :
    let a := e.adapterOf (subj.paths ++ clip.paths).flatten
    ∃ shapes, IsResult k (x f.simplifyContour) r rule cw (a.sqrToInt f.minArea) (a.round subj.paths) (a.round clip.paths)
      shapes ∧ out = a.shapes shapes := by
  intro a
  rcases h with h | h
  · have h0 := C54_overlay e k x subj clip r rule cw f
    dsimp only at h0
    rw [h0, hclean] at h
    obtain ⟨shapes, hs, hout⟩ := Option.map_eq_some_iff.1 h
    exact ⟨shapes, Or.inl hs, by rw [← hout, if_neg (by simp)]⟩
  · have h0 := (C54_graph_single_simplify e k x (x f.simplifyContour) subj clip r rule cw f f.minArea).1
    dsimp only at h0
    rw [h0, hclean] at h
    obtain ⟨shapes, hs, hout⟩ := Option.map_eq_some_iff.1 h
    obtain ⟨g, hg, hs⟩ := Option.bind_eq_some_iff.1 hs
    exact ⟨shapes, Or.inr ⟨g, hg, hs⟩, by rw [← hout, if_neg (by simp)]⟩

theorem round_append (a : Adapter P T) (l m : List (List P)) : a.round (l ++ m) = a.round l ++ a.round m := by
  unfold Adapter.round; rw [List.map_append]

section
variable {a : Adapter P T} {val : P → QPt} {s : ℚ} {c : QPt} {ein eout : ℚ} {paths : List (List P)}
  (hF : a.Faithful val s c ein eout paths.flatten)
include hF

/-- Rounded edges are close to the given ones. -/
theorem Adapter.Faithful.edge {d : ℚ} {Q : QPt} {E : Pt × Pt} (hE : E ∈ (a.round paths).flatMap polyEdges)
    (h : Within d Q E.1 E.2) : ∃ path ∈ paths, ∃ e ∈ cycleEdges path,
      WithinQ (d + ein) Q (rescale s c (val e.1)) (rescale s c (val e.2)) := by
  obtain ⟨r, hr, hE⟩ := List.mem_flatMap.1 hE
  obtain ⟨path, hp, rfl⟩ := List.mem_map.1 hr
  rw [polyEdges_cycle, cycleEdges_map] at hE
  obtain ⟨e, he, rfl⟩ := List.mem_map.1 hE
  obtain ⟨m1, m2⟩ := cycleEdges_mem he
  refine ⟨path, hp, e, he, (within_q.1 h).trans ?_ ?_⟩
  · exact hF.toInt _ (List.mem_flatten.2 ⟨path, hp, m1⟩)
  · exact hF.toInt _ (List.mem_flatten.2 ⟨path, hp, m2⟩)

/-- Rounded contours wind around points far from them as the given ones do. -/
theorem Adapter.Faithful.wind {q : QPt} (hq : ∀ path ∈ paths, ∀ e ∈ cycleEdges path, ¬ WithinQ (ein / s) q (val e.1) (val e.2)) :
    polysWind (a.round paths) (rescale s c q) = polysWindQ (paths.map fun p => p.map val) q := by
  rw [polysWind_q]
  unfold polysWindQ Adapter.round
  rw [List.map_map, List.map_map, List.map_map]
  congr 1
  refine List.map_congr_left fun path hp => ?_
  simp only [Function.comp]
  rw [← polyWindQ_scaled hF.pos c (path.map val), List.map_map, List.map_map]
  refine polyWindQ_moved hF.ein0 _ _ path (fun p hpp => hF.toInt p (List.mem_flatten.2 ⟨path, hp, hpp⟩)) _ ?_
  intro e he hw
  exact hq path hp e he ((withinQ_scaled hF.pos c).1 hw)

end

section
variable (e : FloatEnv P T) (k : Config) (x : Bool → Externals) (subj clip : Resource P) (r : OverlayRule) (rule : FillRule)
  (cw : Bool) (f : ContourFilter T) (ha : Assumed k (x f.simplifyContour)) (hc : CleanAssumed (x f.simplifyContour))
  (hclean : f.cleanResult = false) (a : Adapter P T) (hadapt : a = e.adapterOf (subj.paths ++ clip.paths).flatten)
  (val : P → QPt) (s : ℚ) (c : QPt) (ein eout : ℚ) (hF : a.Faithful val s c ein eout (subj.paths ++ clip.paths).flatten)
  (hin : ∀ p ∈ (subj.paths ++ clip.paths).flatten, InRange (a.toInt p))
  (hns : ∀ path ∈ subj.paths ++ clip.paths, NotClosedExplicitly (path.map a.toInt))
  (hf : FragFor k (a.round subj.paths) (a.round clip.paths)) (out : List (List (List P)))
  (h : IsFloatResult e k x subj clip r rule cw f out)
include ha hc hclean hadapt hF hin hns hf h

/-- C70: every point of every edge of the result is close to a given edge, within what rounding can do: `drift` units for
the crossing points, `ein` and `eout` units for the conversions. -/
theorem C70_edges : ∀ shape ∈ out, ∀ contour ∈ shape, ∀ g ∈ cycleEdges contour, ∀ q : QPt, WithinQ 0 q (val g.1) (val g.2) →
    ∃ path ∈ subj.paths ++ clip.paths, ∃ d ∈ cycleEdges path,
      WithinQ ((drift k.sr k.fuel + ein + eout) / s) q (val d.1) (val d.2) := by
  obtain ⟨shapes, h1, h2⟩ := h.int hclean
  rw [← hadapt] at h1 h2
  have hr : a.round subj.paths ++ a.round clip.paths = a.round (subj.paths ++ clip.paths) := (round_append _ _ _).symm
  have hin' : ∀ c ∈ a.round subj.paths ++ a.round clip.paths, ∀ p ∈ c, InRange p := by
    rw [hr]
    intro c' hc' p hp
    obtain ⟨path, h3, rfl⟩ := List.mem_map.1 hc'
    obtain ⟨p, h4, rfl⟩ := List.mem_map.1 hp
    exact hin p (List.mem_flatten.2 ⟨path, h3, h4⟩)
  have hns' : ∀ c ∈ a.round subj.paths ++ a.round clip.paths, NotClosedExplicitly c := by
    rw [hr]
    intro c' hc'
    obtain ⟨path, h3, rfl⟩ := List.mem_map.1 hc'
    exact hns path h3
  have hE := C63_edges ha hf hc hns' hin' h1
  rw [hr] at hE
  have hR := (C57_result ha hf hc hin' h1).1
  intro shape hs contour hco g hg q hq
  rw [h2] at hs
  obtain ⟨sh, hsh, rfl⟩ := List.mem_map.1 hs
  obtain ⟨co, hcoo, rfl⟩ := List.mem_map.1 hco
  rw [cycleEdges_map] at hg
  obtain ⟨E, hE1, rfl⟩ := List.mem_map.1 hg
  have hfl : co ∈ shapes.flatten := List.mem_flatten.2 ⟨sh, hsh, hcoo⟩
  obtain ⟨m1, m2⟩ := cycleEdges_mem hE1
  have hw : WithinQ (0 + eout) (rescale s c q) E.1.q E.2.q :=
    ((withinQ_scaled hF.pos c).2 (by rw [zero_div]; exact hq)).trans (hF.toFloat _ (hR co hfl _ m1)) (hF.toFloat _ (hR co hfl _ m2))
  rw [zero_add] at hw
  obtain ⟨t, t0, t1, d1, d2⟩ := hw
  obtain ⟨D, hD, hW⟩ := hE co hfl E (by rw [polyEdges_cycle]; exact hE1) ⟨E.1.x + t * (E.2.x - E.1.x), E.1.y + t * (E.2.y - E.1.y)⟩
    ⟨t, t0, t1, rfl, rfl⟩
  obtain ⟨o, o1, o2, o3⟩ := hW
  have hW' : Within (drift k.sr k.fuel + eout) (rescale s c q) D.1 D.2 := by
    refine ⟨o, o1, ?_, ?_⟩
    · have := abs_sub_le (rescale s c q).x (E.1.x + t * (E.2.x - E.1.x)) o.x
      change |(rescale s c q).x - (E.1.x + t * (E.2.x - E.1.x))| ≤ _ at d1
      dsimp only at o2; linarith
    · have := abs_sub_le (rescale s c q).y (E.1.y + t * (E.2.y - E.1.y)) o.y
      change |(rescale s c q).y - (E.1.y + t * (E.2.y - E.1.y))| ≤ _ at d2
      dsimp only at o3; linarith
  obtain ⟨path, hp, d, hd, hw⟩ := hF.edge hD hW'
  exact ⟨path, hp, d, hd, (withinQ_scaled hF.pos c).1 (hw.mono (by linarith))⟩

/-- C70: around every point that is not that close to a given edge, the result winds exactly as it should: once (in the
requested direction) if the overlay rule holds for "inside subject" and "inside clip", by the fill rule on the winding
numbers of the given floating point contours, else not at all. -/
theorem C70_local (hmin : a.sqrToInt f.minArea = 0) (q : QPt)
    (hq : ∀ path ∈ subj.paths ++ clip.paths, ∀ d ∈ cycleEdges path,
      ¬ WithinQ ((drift k.sr k.fuel + ein + eout) / s) q (val d.1) (val d.2)) :
    polysWindQ (out.flatten.map fun contour => contour.map val) q = outerTurn cw *
      if r.op (rule.inside (polysWindQ (subj.paths.map fun p => p.map val) q))
        (rule.inside (polysWindQ (clip.paths.map fun p => p.map val) q)) then 1 else 0 := by
  have hedges := C70_edges e k x subj clip r rule cw f ha hc hclean a hadapt val s c ein eout hF hin hns hf out h
  obtain ⟨shapes, h1, h2⟩ := h.int hclean
  rw [← hadapt] at h1 h2
  rw [hmin] at h1
  have hr : a.round subj.paths ++ a.round clip.paths = a.round (subj.paths ++ clip.paths) := (round_append _ _ _).symm
  have hin' : ∀ c ∈ a.round subj.paths ++ a.round clip.paths, ∀ p ∈ c, InRange p := by
    rw [hr]
    intro c' hc' p hp
    obtain ⟨path, h3, rfl⟩ := List.mem_map.1 hc'
    obtain ⟨p, h4, rfl⟩ := List.mem_map.1 hp
    exact hin p (List.mem_flatten.2 ⟨path, h3, h4⟩)
  have hns' : ∀ c ∈ a.round subj.paths ++ a.round clip.paths, NotClosedExplicitly c := by
    rw [hr]
    intro c' hc'
    obtain ⟨path, h3, rfl⟩ := List.mem_map.1 hc'
    exact hns path h3
  have hD := drift_nonneg k.fuel k.sr
  have h0 := hF.ein0
  have h0' := hF.eout0
  have hfar : ∀ E ∈ (a.round subj.paths ++ a.round clip.paths).flatMap polyEdges,
      ¬ Within (drift k.sr k.fuel + eout) (rescale s c q) E.1 E.2 := by
    rw [hr]
    intro E hE hw
    obtain ⟨path, hp, d, hd, hw⟩ := hF.edge hE hw
    exact hq path hp d hd ((withinQ_scaled hF.pos c).1 (hw.mono (by linarith)))
  have hL := C63_local ha hf hns' hin' h1 (rescale s c q) fun E hE hw => hfar E hE (hw.mono (by linarith))
  -- the given contours
  have hsmall : ∀ path ∈ subj.paths ++ clip.paths, ∀ e ∈ cycleEdges path, ¬ WithinQ (ein / s) q (val e.1) (val e.2) := by
    intro path hp d hd hw
    exact hq path hp d hd (hw.mono (by rw [div_le_div_iff_of_pos_right hF.pos]; linarith))
  have w1 : polysWind (a.round subj.paths) (rescale s c q) = polysWindQ (subj.paths.map fun p => p.map val) q :=
    Adapter.Faithful.wind ⟨hF.pos, hF.ein0, hF.eout0, fun p hp => hF.toInt p (by simp at hp ⊢; exact Or.inl hp), hF.toFloat⟩
      fun path hp => hsmall path (List.mem_append_left _ hp)
  have w2 : polysWind (a.round clip.paths) (rescale s c q) = polysWindQ (clip.paths.map fun p => p.map val) q :=
    Adapter.Faithful.wind ⟨hF.pos, hF.ein0, hF.eout0, fun p hp => hF.toInt p (by simp at hp ⊢; exact Or.inr hp), hF.toFloat⟩
      fun path hp => hsmall path (List.mem_append_right _ hp)
  rw [w1, w2] at hL
  rw [← hL, polysWind_q]
  -- the result
  have hR := (C57_result ha hf hc hin' h1).1
  have hE := C63_edges ha hf hc hns' hin' h1
  have hout : out.flatten = shapes.flatten.map fun co => co.map a.toFloat := by
    rw [h2]; unfold Adapter.shapes; rw [List.map_flatten]
  rw [hout, List.map_map]
  unfold polysWindQ
  rw [List.map_map, List.map_map]
  congr 1
  refine List.map_congr_left fun co hco => ?_
  simp only [Function.comp]
  rw [← polyWindQ_scaled hF.pos c (List.map val _), List.map_map, List.map_map]
  refine polyWindQ_moved hF.eout0 Pt.q _ co (fun p hp => hF.toFloat p (hR co hco p hp)) _ ?_
  intro E hE1 hw
  obtain ⟨t, t0, t1, d1, d2⟩ := hw
  obtain ⟨D, hDm, hW⟩ := hE co hco E (by rw [polyEdges_cycle]; exact hE1) ⟨E.1.x + t * (E.2.x - E.1.x), E.1.y + t * (E.2.y - E.1.y)⟩
    ⟨t, t0, t1, rfl, rfl⟩
  obtain ⟨o, o1, o2, o3⟩ := hW
  refine hfar D hDm ⟨o, o1, ?_, ?_⟩
  · have := abs_sub_le (rescale s c q).x (E.1.x + t * (E.2.x - E.1.x)) o.x
    change |(rescale s c q).x - (E.1.x + t * (E.2.x - E.1.x))| ≤ _ at d1
    dsimp only at o2; linarith
  · have := abs_sub_le (rescale s c q).y (E.1.y + t * (E.2.y - E.1.y)) o.y
    change |(rescale s c q).y - (E.1.y + t * (E.2.y - E.1.y))| ≤ _ at d2
    dsimp only at o3; linarith

end

/-! ### an example -/

/-- Rational points, in units of 1/1024. -/
def exUnits : Adapter QPt Unit :=
  ⟨fun p => ⟨⌊1024 * p.x + 1 / 2⌋, ⌊1024 * p.y + 1 / 2⌋⟩, fun z => ⟨z.x / 1024, z.y / 1024⟩, fun _ => 0⟩

theorem exUnits_faithful (pts : List QPt) : exUnits.Faithful id 1024 ⟨0, 0⟩ (1 / 2) 0 pts := by
  refine ⟨by norm_num, by norm_num, le_refl _, fun p _ => ?_, fun z _ => ?_⟩
  · have e : ∀ t : ℚ, |((⌊1024 * t + 1 / 2⌋ : ℤ) : ℚ) - 1024 * (t - 0)| ≤ 1 / 2 := by
      intro t
      have h1 := Int.floor_le (1024 * t + 1 / 2 : ℚ)
      have h2 := Int.lt_floor_add_one (1024 * t + 1 / 2 : ℚ)
      rw [abs_le]
      constructor <;> linarith
    exact ⟨e p.x, e p.y⟩
  · unfold Close rescale exUnits Pt.q
    dsimp only [id]
    constructor <;> ring_nf <;> simp

def exQEnv : FloatEnv QPt Unit := ⟨fun _ => exUnits, fun _ s => s, (), 64⟩

def exQ1 : List QPt := [⟨0, 0⟩, ⟨10, 1/3⟩, ⟨10, 10⟩, ⟨1/7, 10⟩]
def exQ2 : List QPt := [⟨5, 5⟩, ⟨15, 16/3⟩, ⟨15, 15⟩, ⟨5, 15⟩]

def exQuad : List (List (List Pt)) := [[[⟨5120, 10240⟩, ⟨5120, 5120⟩, ⟨10240, 5291⟩, ⟨10240, 10240⟩]]]

theorem exQ_round : exUnits.round [exQ1] = [[⟨0, 0⟩, ⟨10240, 341⟩, ⟨10240, 10240⟩, ⟨146, 10240⟩]] ∧
    exUnits.round [exQ2] = [[⟨5120, 5120⟩, ⟨15360, 5461⟩, ⟨15360, 15360⟩, ⟨5120, 15360⟩]] := by
  decide +kernel

theorem exQ_result : IsFloatResult exQEnv exConfig (fun _ => exRaw) (.single exQ1) (.double [exQ2]) .intersect .nonZero false
    ⟨(), false, false⟩ (exUnits.shapes exQuad) := by
  left
  have := C54_overlay exQEnv exConfig (fun _ => exRaw) (.single exQ1) (.double [exQ2]) .intersect .nonZero false ⟨(), false, false⟩
  dsimp only at this
  rw [this]
  change (overlayCustom exConfig exRaw .intersect .nonZero false 0
    (overlaySegments (exUnits.round [exQ1]) (exUnits.round [exQ2]))).map _ = _
  rw [exQ_round.1, exQ_round.2, show overlayCustom exConfig exRaw .intersect .nonZero false 0 (overlaySegments
    [[⟨0, 0⟩, ⟨10240, 341⟩, ⟨10240, 10240⟩, ⟨146, 10240⟩]] [[⟨5120, 5120⟩, ⟨15360, 5461⟩, ⟨15360, 15360⟩, ⟨5120, 15360⟩]]) =
    some exQuad by decide +kernel]
  rfl

/-- The intersection of two quadrangles with fractional coordinates, and a crossing that has to be rounded, winds as it
should around (7, 7). -/
example : polysWindQ ((exUnits.shapes exQuad).flatten.map fun contour => contour.map id) ⟨7, 7⟩ = outerTurn false *
    if OverlayRule.op .intersect (FillRule.inside .nonZero (polysWindQ [exQ1] ⟨7, 7⟩))
      (FillRule.inside .nonZero (polysWindQ [exQ2] ⟨7, 7⟩)) then 1 else 0 := by
  have hd : (drift exConfig.sr exConfig.fuel + 1 / 2 + 0) / 1024 ≤ 1 := by
    have r : ∀ c : Nat, (⟨c, 1⟩ : SnapRadius).radius.toNat = 2 ^ c := by
      intro c
      unfold SnapRadius.radius
      have : ((2 : Int) ^ c) = ((2 ^ c : Nat) : Int) := by push_cast; rfl
      rw [this, Int.toNat_natCast]
    have s2 : Nat.sqrt 2 = 1 := (Nat.eq_sqrt.2 ⟨by norm_num, by norm_num⟩).symm
    have s4 : Nat.sqrt 4 = 2 := (Nat.eq_sqrt.2 ⟨by norm_num, by norm_num⟩).symm
    have s8 : Nat.sqrt 8 = 2 := (Nat.eq_sqrt.2 ⟨by norm_num, by norm_num⟩).symm
    have i0 : (⟨0, 1⟩ : SnapRadius).increment = ⟨1, 1⟩ := rfl
    have i1 : (⟨1, 1⟩ : SnapRadius).increment = ⟨2, 1⟩ := rfl
    have i2 : (⟨2, 1⟩ : SnapRadius).increment = ⟨3, 1⟩ := rfl
    change (drift ⟨0, 1⟩ 5 + 1 / 2 + 0) / 1024 ≤ 1
    simp only [drift, i0, i1, i2, reach, r]
    norm_num [s2, s4, s8]
  have := C70_local exQEnv exConfig (fun _ => exRaw) (.single exQ1) (.double [exQ2]) .intersect .nonZero false ⟨(), false, false⟩
    exRaw_assumed.1 exRaw_clean rfl exUnits rfl id 1024 ⟨0, 0⟩ (1 / 2) 0 (exUnits_faithful _)
    (by unfold InRange; decide +kernel) (by decide +kernel) (FragOk.list _ _) _ exQ_result rfl ⟨7, 7⟩ (by
      intro path hp d hdd hw
      obtain ⟨t, t0, t1, h1, h2⟩ := hw.mono hd
      rw [abs_le] at h1 h2
      simp only [Resource.paths, List.mem_cons, List.mem_append, List.not_mem_nil, or_false] at hp
      rcases hp with rfl | rfl <;> simp only [exQ1, exQ2, cycleEdges, List.zip_cons_cons, List.zip_nil_right, List.cons_append, List.nil_append,
          List.mem_cons, List.not_mem_nil, or_false] at hdd <;>
        rcases hdd with rfl | rfl | rfl | rfl <;> simp only [id] at h1 h2 <;> linarith [h1.1, h1.2, h2.1, h2.2])
  simpa [Resource.paths] using this

end IOverlay
