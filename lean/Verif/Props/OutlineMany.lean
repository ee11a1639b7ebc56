/-
C52: outlines of several paths. C50 for outlines.
-/
import Verif.Props.Outline

namespace IOverlay
open WindingCount
variable {T P : Type}

/-- Every closed contour of different edges of the region's boundary has an edge on a drawn side: none consists only of
chords that cut corners off. -/
def SidedLoops (r : List (Seg CountOff)) : Prop :=
  ∀ c : List Pt, 3 ≤ c.length → ((polyEdges c).map leftToRight).Nodup →
    (∀ e ∈ polyEdges c, leftToRight e ∈ regionEdges r) → ∃ e ∈ polyEdges c, OnSide r e

theorem regionEdges_nodup {r : List (Seg CountOff)} (hp : Planar r) : (regionEdges r).Nodup := by
  classical
  unfold regionEdges
  have : ((r.filter fun e => decide (RegionEdge r e)).map fun e => (e.a, e.b)).Pairwise (· ≠ ·) := by
    rw [List.pairwise_map]
    refine (hp.sorted.sublist List.filter_sublist).imp fun {e f} h => ?_
    intro e1
    rw [Prod.mk.injEq] at e1
    unfold Seg.lt at h
    rw [e1.1, e1.2] at h
    simp [Pt.lt_irrefl] at h
  exact this

theorem OffsetContours.onSide {cw : Bool} {r : List (Seg CountOff)} {outer holes : List (List Pt)} (hp : Planar r)
    (h : OffsetContours cw r outer holes) (hs : SidedLoops r) : ∀ c ∈ outer ++ holes, ∃ e ∈ polyEdges c, OnSide r e := by
  classical
  intro c hc
  have hl : 3 ≤ c.length := by
    rcases List.mem_append.1 hc with hc | hc
    · exact three_of_windsOnce (outerTurn_ne cw) (h.outerOnce c hc)
    · exact three_of_windsOnce (d := - outerTurn cw) (by have := outerTurn_ne cw; omega) (h.holesOnce c hc)
  refine hs c hl ?_ fun e he => ?_
  · have hn := h.edges.nodup_iff.2 (regionEdges_nodup hp)
    rw [List.map_flatMap] at hn
    exact (List.nodup_flatMap.1 hn).1 c hc
  · have hm : leftToRight e ∈ (((outer ++ holes).flatMap polyEdges).map leftToRight) :=
      List.mem_map.2 ⟨e, List.mem_flatMap.2 ⟨c, hc, he⟩, rfl⟩
    rw [h.edges.mem_iff] at hm
    exact hm

/-- A sufficient condition: different boundary edges that lie only on chords have no common end. -/
theorem sidedLoops_of {r : List (Seg CountOff)} (hs : ∀ s ∈ r, ∀ t ∈ r, RegionEdge r s → RegionEdge r t →
    s.c.bold = false → t.c.bold = false → (s.a, s.b) ≠ (t.a, t.b) → s.a ≠ t.a ∧ s.a ≠ t.b ∧ s.b ≠ t.a ∧ s.b ≠ t.b) :
    SidedLoops r := by
  classical
  intro c hl hn hm
  by_contra hno
  push Not at hno
  have weak : ∀ e ∈ polyEdges c, ∃ s ∈ r, RegionEdge r s ∧ s.c.bold = false ∧ (s.a, s.b) = leftToRight e := by
    intro e he
    obtain ⟨s, hs', e1⟩ := List.mem_map.1 (hm e he)
    rw [List.mem_filter, decide_eq_true_iff] at hs'
    refine ⟨s, hs'.1, hs'.2, ?_, e1⟩
    cases hb : s.c.bold with
    | false => rfl
    | true =>
      refine absurd ⟨s, hs'.1, hb, ?_⟩ (hno e he)
      unfold leftToRight at e1
      split at e1
      · exact Or.inl e1.symm
      · right
        rw [Prod.mk.injEq] at e1
        rw [e1.1, e1.2]
  rcases c with _ | ⟨a, _ | ⟨b, _ | ⟨d, c⟩⟩⟩
  · simp at hl
  · simp at hl
  · simp at hl
  · have he : polyEdges (a :: b :: d :: c) = (a, b) :: (b, d) :: (d :: c).zip (c ++ [a]) := rfl
    rw [he] at hn weak
    obtain ⟨s, s1, s2, s3, s4⟩ := weak (a, b) (by simp)
    obtain ⟨t, t1, t2, t3, t4⟩ := weak (b, d) (by simp)
    rw [List.map_cons, List.map_cons, List.nodup_cons] at hn
    have hne : leftToRight (a, b) ≠ leftToRight (b, d) := fun e => hn.1 (by rw [e]; simp)
    have := hs s s1 t t1 s2 t2 s3 t3 (by rw [s4, t4]; exact hne)
    unfold leftToRight at s4 t4
    split at s4 <;> split at t4 <;> simp only [Prod.mk.injEq] at s4 t4 <;>
      rw [s4.1, s4.2, t4.1, t4.2] at this <;> simp at this

/-- The region of an offset path, if none of its contours consists only of chords. -/
theorem offset_sides {k : OffConfig} {x : Externals} (ha : OffAssumed k x) {cw : Bool}
    {segs : List (Seg CountOff)} (ht : AllTraced segs) (hb : Balanced CountOff.subj segs) (hz : ∀ e ∈ segs, e.a ≠ e.b)
    (hf : FragOk k.st k.sr segs) {r : List (Seg CountOff)} (hr : nodedEdges k.st k.sr k.tree k.fuel segs = some r)
    (h2 : AtMostTwoRight (regionEdges r)) (hs : SidedLoops r) {shapes : List (List (List Pt))}
    (h : offsetShapes k x cw 0 segs = some shapes) (q : QPt) :
    polysWind shapes.flatten q = outerTurn cw * if 0 < segsWind CountOff.subj r q then 1 else 0 := by
  obtain ⟨outer, holes, h1, -, -, h4⟩ := offset_region ha ht hb hz hf hr h2 h
  obtain ⟨r', _, _, e1, hp, -⟩ := offset_run ha.tree ha.scan ha.sortE (fun s hs => (ht s hs).lt (hz s hs))
    ⟨(closed_iff_balanced _ _).2 hb, fun s hs => (ht s hs).nonempty⟩ hf h
  rw [hr] at e1
  cases e1
  exact h4 (h1.onSide hp hs) q

section
variable (o : FloatOps T P)

/-- The radius, join and direction used for a path: the outer ones for a counterclockwise path (negative area), the
inner ones, with the path reversed, for a clockwise path (a hole). -/
def OutlineParams.radius (s : OutlineParams T) (a : Int) : T := if a < 0 then s.outerRadius else s.innerRadius
def OutlineParams.joinFor (s : OutlineParams T) (a : Int) : Join T := if a < 0 then s.outerJoin else s.innerJoin
def alongPath (a : Int) (path : List P) : List P := if a < 0 then path else path.reverse

/-- The edges registered for a path of an outline. -/
def FloatOps.pathEdges (s : OutlineParams T) (a : Int) (path : List P) : List (Seg CountOff) :=
  o.outlineSegments (s.radius a) (s.joinFor a) (alongPath a path)

theorem polysWind_reverses (l : List (List Pt)) (q : QPt) : polysWind (l.map List.reverse) q = - polysWind l q := by
  unfold polysWind
  induction l with
  | nil => simp
  | cons c l ih => simp only [List.map_cons, List.sum_cons, polyWind_reverse] at ih ⊢; rw [ih]; ring

/-- The contribution of an outlined path: with its shifted contour `pieces`, the points around which it winds
positively count `1` for an outer path and `-1` for a hole. -/
noncomputable def contribution (a : Int) (pieces : List (List Pt)) (q : QPt) : Int :=
  (if a < 0 then 1 else -1) * if 0 < polysWind pieces q then 1 else 0

/-- The edges of a path of an outline are not degenerate, no crossing of them has to be rounded, no
contour of its region consists only of chords, and no point is the left end of more than two boundary edges. -/
structure PlainPath (k : OffConfig) (s : OutlineParams T) (a : Int) (path : List P) : Prop where
  proper : ∀ e ∈ o.pathEdges s a path, e.a ≠ e.b
  exact : (roundMarks k.sr.radius (listPairs (mergeIfNeeded (sortSegs (o.pathEdges s a path))))).2 = false
  sides : ∀ r, nodedEdges k.st k.sr k.tree k.fuel (o.pathEdges s a path) = some r →
    SidedLoops r ∧ AtMostTwoRight (regionEdges r)

/-- The noded edges behind offset shapes. -/
theorem offset_noded {k : OffConfig} {x : Externals} {cw : Bool} {minArea : Nat} {segs : List (Seg CountOff)}
    {shapes : List (List (List Pt))} (h : offsetShapes k x cw minArea segs = some shapes) :
    ∃ r, nodedEdges k.st k.sr k.tree k.fuel segs = some r := by
  unfold offsetShapes offsetGraph at h
  unfold nodedEdges
  split at h
  · rename_i he; rw [if_pos he]; exact ⟨[], rfl⟩
  · rename_i he
    rw [if_neg he]
    cases hs : splitSegments k.st k.sr k.tree k.fuel segs with
    | none => rw [hs] at h; cases h
    | some r => exact ⟨_, rfl⟩

/-- C52 (a path of several): the part of a path covers exactly the points around which its shifted contour winds
positively; parts of holes wind clockwise, the others counterclockwise. -/
theorem C52_outline_part (k : OffConfig) (x : Externals) (ha : OffAssumed k x) (hst : k.st = .list)
    (area : List P → Int) (s : OutlineParams T) (path : List P) (hA : 1 < (area path).natAbs)
    (hp : PlainPath o k s (area path) path) (part : List (List Pt)) (h : o.outlinePart k x area s path = some part) :
    ∃ pieces, OutlinePieces o (s.radius (area path)) (s.joinFor (area path)) (alongPath (area path) path) pieces ∧
      ∀ q, polysWind part q = contribution (area path) pieces q := by
  obtain ⟨pieces, h1, h2, -⟩ := C51_outline o (s.radius (area path)) (s.joinFor (area path)) (alongPath (area path) path)
  refine ⟨pieces, h1, fun q => ?_⟩
  have main : ∀ shapes, offsetShapes k x false 0 (o.pathEdges s (area path) path) = some shapes →
      polysWind shapes.flatten q = if 0 < polysWind pieces q then 1 else 0 := by
    intro shapes hs
    obtain ⟨r, hr⟩ := offset_noded hs
    obtain ⟨d1, d2⟩ := hp.sides r hr
    have ht := allTraced_outline o (s.radius (area path)) (s.joinFor (area path)) (alongPath (area path) path)
    have hf : FragOk k.st k.sr (o.pathEdges s (area path) path) := by rw [hst]; exact FragOk.list _ _
    rw [offset_sides ha ht (C48_outline o _ _ _) hp.proper hf hr d2 d1 hs q, ← h2]
    have : segsWind CountOff.subj r q = segsWind CountOff.subj (o.pathEdges s (area path) path) q := by
      unfold nodedEdges at hr
      split at hr
      · rename_i he; cases hr; rw [List.isEmpty_iff] at he; rw [he]
      · rw [hst] at hr
        exact C14_exact_split isComp_off k.sr k.tree k.fuel _ r (fun e he => (ht e he).lt (hp.proper e he)) hp.exact hr q
    rw [this]
    unfold FloatOps.pathEdges
    split <;> simp_all [outerTurn]
  unfold FloatOps.outlinePart at h
  rw [if_neg (by omega)] at h
  unfold contribution
  split at h
  · rename_i ha'
    obtain ⟨shapes, h3, rfl⟩ := Option.map_eq_some_iff.1 h
    rw [if_pos ha', one_mul]
    refine main shapes ?_
    unfold FloatOps.pathEdges OutlineParams.radius OutlineParams.joinFor alongPath
    rw [if_pos ha', if_pos ha', if_pos ha']
    exact h3
  · rename_i ha'
    obtain ⟨shapes, h3, rfl⟩ := Option.map_eq_some_iff.1 h
    rw [if_neg ha', polysWind_reverses, main shapes, neg_one_mul]
    unfold FloatOps.pathEdges OutlineParams.radius OutlineParams.joinFor alongPath
    rw [if_neg ha', if_neg ha', if_neg ha']
    exact h3

/-- C52 (a degenerate path of several): it contributes nothing. -/
theorem C52_outline_degenerate (k : OffConfig) (x : Externals) (area : List P → Int) (s : OutlineParams T)
    (path : List P) (hA : (area path).natAbs ≤ 1) : o.outlinePart k x area s path = some [] := by
  unfold FloatOps.outlinePart; rw [if_pos hA]

/-- The shifted contours of the paths of an outline that are not degenerate. -/
def ShiftedPaths (s : OutlineParams T) (area : List P → Int) (paths : List (List P)) (ps : List (Int × List (List Pt))) : Prop :=
  List.Forall₂ (fun path p => p.1 = area path ∧
      OutlinePieces o (s.radius (area path)) (s.joinFor (area path)) (alongPath (area path) path) p.2)
    (paths.filter fun path => decide (1 < (area path).natAbs)) ps

open Classical in
/-- C52 (several paths): the outline consists of exactly those contours, large enough after cleaning, of the region of
all points that lie in more shifted outer paths than shifted holes. Each shifted path counts the points around which it
winds positively. (List strategy, no crossing rounded; no point is the left end of more than two edges of the result.) -/
theorem C52_outline_many (k : OffConfig) (kb : Config) (x : Externals) (ha : OffAssumed k x) (hb : Assumed kb x)
    (hst : k.st = .list) (hbst : kb.st = .list) (area : List P → Int) (s : OutlineParams T) (cw : Bool) (minArea : Nat)
    (paths : List (List P)) (hlen : 2 ≤ paths.length)
    (hp : ∀ path ∈ paths, 1 < (area path).natAbs → PlainPath o k s (area path) path)
    (parts : List (List (List Pt))) (hparts : paths.mapM (o.outlinePart k x area s) = some parts)
    (hn : ∀ c ∈ parts.flatten, NotClosedExplicitly c)
    (hx : (roundMarks kb.sr.radius (listPairs (mergeIfNeeded (sortSegs
      (overlaySegments parts.flatten [] : List (Seg CountBool)))))).2 = false)
    (links : List Link)
    (hl : buildBoolean (isIncluded .subject) .positive kb.st kb.sr kb.tree kb.scan kb.fuel
      (overlaySegments parts.flatten []) = some links)
    (h2 : AtMostTwoRight (links.map fun l => (l.a, l.b))) (shapes : List (List (List Pt)))
    (h : o.outline k kb x area s cw minArea paths = some shapes) :
    ∃ (ps : List (Int × List (List Pt))) (outer holes : List (List Pt)), ShiftedPaths o s area paths ps ∧
      (((outer ++ holes).flatMap polyEdges).map leftToRight).Perm (links.map fun l => (l.a, l.b)) ∧
      (∀ q, polysWind (outer ++ holes) q = outerTurn cw * if 0 < (ps.map fun p => contribution p.1 p.2 q).sum then 1 else 0) ∧
      (∀ c ∈ outer, WindsOnce (outerTurn cw) c) ∧ (∀ c ∈ holes, WindsOnce (- outerTurn cw) c) ∧
      (outer ++ holes).Pairwise Nested ∧
      outerContours shapes =
        (outer.filter fun c => decide (LargeEnough (max minArea 1) (x.clean c).1)).map (fun c => (x.clean c).1) ∧
      (shapes = [] ∨ (holeContours shapes).Perm
        ((holes.filter fun c => decide (LargeEnough (max minArea 1) (x.clean c).1)).map fun c => (x.clean c).1)) ∧
      ∀ sh ∈ shapes, sh ≠ [] := by
  obtain ⟨ps, hps, hsum⟩ : ∃ ps, ShiftedPaths o s area paths ps ∧
      ∀ q, polysWind parts.flatten q = (ps.map fun p => contribution p.1 p.2 q).sum := by
    have hf := mapM_forall₂ hparts
    clear hparts hn hx hl h hlen
    unfold ShiftedPaths
    induction hf with
    | nil => exact ⟨[], .nil, fun q => rfl⟩
    | @cons path part ls rs h1 _ ih =>
      obtain ⟨ps, e1, e2⟩ := ih fun p hp' => hp p (by simp [hp'])
      by_cases hA : 1 < (area path).natAbs
      · obtain ⟨pieces, e3, e4⟩ := C52_outline_part o k x ha hst area s path hA (hp path (by simp) hA) part h1
        refine ⟨(area path, pieces) :: ps, ?_, fun q => ?_⟩
        · rw [List.filter_cons_of_pos (by simpa using hA)]
          exact .cons ⟨rfl, e3⟩ e1
        · rw [List.flatten_cons, List.map_cons, List.sum_cons, ← e2, ← e4]
          unfold polysWind
          rw [List.map_append, List.sum_append]
      · rw [C52_outline_degenerate o k x area s path (by omega)] at h1
        cases h1
        refine ⟨ps, ?_, e2⟩
        rw [List.filter_cons_of_neg (by simpa using hA)]
        exact e1
  have hov : overlayCustom kb x .subject .positive cw (max minArea 1) (overlaySegments parts.flatten []) = some shapes := by
    unfold FloatOps.outline at h
    split at h
    · simp at hlen
    · simp at hlen
    · rw [hparts] at h; exact h
  have hfr : FragFor kb parts.flatten [] := by unfold FragFor; rw [hbst]; exact FragOk.list _ _
  obtain ⟨segs, outer, holes, c1, c2, c3, c4, c5, c6, c7, c8, c9⟩ :=
    C24_contours kb x hb .subject .positive cw (max minArea 1) parts.flatten [] hfr links hl h2 shapes hov
  refine ⟨ps, outer, holes, hps, c2, fun q => ?_, c4, c5, c6, c7, c8, c9⟩
  rw [hbst] at c1
  have e := noded_input kb.sr kb.tree kb.fuel parts.flatten [] segs hn (by simp) hx c1 q
  rw [c3, e.1, hsum]
  simp [OverlayRule.op, FillRule.inside]

/-- C50 (outlines): if the splitting phase of an outlined path without degenerate edges finishes, the graph is built and
every walk of the extraction terminates. -/
theorem C50_outline_terminates (k : OffConfig) (x : Externals) (ha : OffAssumed k x) (radius : T) (j : Join T)
    (cw : Bool) (path : List P) (r : List (Seg CountOff))
    (hz : ∀ e ∈ o.outlineSegments radius j path, e.a ≠ e.b) (hf : FragOk k.st k.sr (o.outlineSegments radius j path))
    (hr : nodedEdges k.st k.sr k.tree k.fuel (o.outlineSegments radius j path) = some r) (minArea : Nat) :
    ∃ g e, offsetGraph k x (o.outlineSegments radius j path) = some g ∧
      extractOffContours g cw x.clean minArea = some e := by
  have ht := allTraced_outline o radius j path
  obtain ⟨g, V, h1, -, -, -, h5, h6, h7, h8⟩ := offset_graph (k := k) (x := x) ha.tree ha.scan ha.sortE
    (fun s hs => (ht s hs).lt (hz s hs))
    ⟨(closed_iff_balanced _ _).2 (C48_outline o radius j path), fun s hs => (ht s hs).nonempty⟩ hf hr
  obtain ⟨ws, e, h, -⟩ := h5.extract cw (boldClean g x.clean) minArea
  exact ⟨g, e, h1, by rw [(h8 cw minArea _ (boldOnly_boldClean h6 h7 _)).1]; exact h⟩

/-- A computable criterion: on the graph of the edges. -/
theorem plainPath_of_graph {k : OffConfig} {x : Externals} (ha : OffAssumed k x) (hst : k.st = .list) {s : OutlineParams T}
    {a : Int} {path : List P} (hz : ∀ e ∈ o.pathEdges s a path, e.a ≠ e.b)
    (hx : (roundMarks k.sr.radius (listPairs (mergeIfNeeded (sortSegs (o.pathEdges s a path))))).2 = false) {g : Graph}
    (hg : offsetGraph k x (o.pathEdges s a path) = some g)
    (h2 : AtMostTwoRight ((g.links.filter fun l => !maskFilter .subject l.fill).map fun l => (l.a, l.b)))
    (hw : ∀ l ∈ g.links.filter (fun l => !maskFilter .subject l.fill && !l.isBold),
      ∀ m ∈ g.links.filter (fun l => !maskFilter .subject l.fill && !l.isBold), (l.a, l.b) ≠ (m.a, m.b) →
      l.a ≠ m.a ∧ l.a ≠ m.b ∧ l.b ≠ m.a ∧ l.b ≠ m.b) : PlainPath o k s a path := by
  refine ⟨hz, hx, fun r hr => ?_⟩
  have ht := allTraced_outline o (s.radius a) (s.joinFor a) (alongPath a path)
  have hf : FragOk k.st k.sr (o.pathEdges s a path) := by rw [hst]; exact FragOk.list _ _
  obtain ⟨g', V, h1, hp, hok, h4, -⟩ := offset_graph (k := k) (x := x) (segs := o.pathEdges s a path) ha.tree ha.scan
    ha.sortE (fun s hs => (ht s hs).lt (hz s hs))
    ⟨(closed_iff_balanced _ _).2 (C48_outline o _ _ _), fun s hs => (ht s hs).nonempty⟩ hf hr
  rw [hg] at h1
  cases h1
  have hfil : ∀ e ∈ r, (RegionEdge r e ↔ (!maskFilter .subject (fillOfOff r e)) = true) := by
    intro e he
    rw [regionEdge_iff hp hok he]
    unfold offBoundary fillOfOff
    generalize decide (botW CountOff.subj r e + e.c.subj > 0) = a
    generalize decide (botW CountOff.subj r e > 0) = b
    generalize e.c.bold = c
    revert a b c; decide
  have hbold : ∀ s ∈ r, ∀ l : Link, l.fill = fillOfOff r s → l.isBold = s.c.bold := by
    intro s _ l e
    unfold Link.isBold
    rw [e]
    unfold fillOfOff
    generalize decide (botW CountOff.subj r s + s.c.subj > 0) = a
    generalize decide (botW CountOff.subj r s > 0) = b
    generalize s.c.bold = c
    revert a b c; decide
  constructor
  · have hlink : ∀ s ∈ r, RegionEdge r s → s.c.bold = false →
        ∃ l ∈ g.links.filter (fun l => !maskFilter .subject l.fill && !l.isBold), l.a = s.a ∧ l.b = s.b := by
      intro s hs h3 hb
      have hm : (s.a, s.b, fillOfOff r s) ∈ r.map (fun s => (s.a, s.b, fillOfOff r s)) := List.mem_map.2 ⟨s, hs, rfl⟩
      rw [← h4] at hm
      obtain ⟨l, hl, e1⟩ := List.mem_map.1 hm
      simp only [Prod.mk.injEq] at e1
      refine ⟨l, List.mem_filter.2 ⟨hl, ?_⟩, e1.1, e1.2.1⟩
      rw [Bool.and_eq_true, e1.2.2, hbold s hs l e1.2.2, hb]
      exact ⟨(hfil s hs).1 h3, rfl⟩
    refine sidedLoops_of fun s hs t ht r1 r2 b1 b2 hne => ?_
    obtain ⟨l, l1, l2, l3⟩ := hlink s hs r1 b1
    obtain ⟨m, m1, m2, m3⟩ := hlink t ht r2 b2
    rw [← l2, ← l3, ← m2, ← m3] at hne ⊢
    exact hw l l1 m m1 hne
  · have e := congrArg (fun l : List (Pt × Pt × Fill) =>
      (l.filter fun t => !maskFilter .subject t.2.2).map fun t => (t.1, t.2.1)) h4
    rw [List.filter_map, List.filter_map, List.map_map, List.map_map] at e
    have : regionEdges r = (g.links.filter fun l => !maskFilter .subject l.fill).map fun l => (l.a, l.b) := by
      classical
      refine Eq.trans ?_ e.symm
      unfold regionEdges
      congr 1
      refine List.filter_congr fun e he => ?_
      rw [Bool.eq_iff_iff, decide_eq_true_iff]
      exact hfil e he
    rw [this]
    exact h2

end

/-! ### witnesses -/

/-- The sign convention of `unsafe_int_area`: negative for counterclockwise paths. -/
def exArea (p : List Pt) : Int := -((polyEdges p).map fun e => e.1.x * e.2.y - e.2.x * e.1.y).sum / 2

/-- Outer paths grow by 10, holes shrink by 5; bevel joins. -/
def exOutline : OutlineParams Int := ⟨-10, .bevel, 5, .bevel⟩

def exSquare : List Pt := [⟨0, 0⟩, ⟨100, 0⟩, ⟨100, 100⟩, ⟨0, 100⟩]
def exHole : List Pt := [⟨30, 30⟩, ⟨30, 70⟩, ⟨70, 70⟩, ⟨70, 30⟩]

/-- Square and hole meet the hypotheses; the corners of the square are cut off by chords. -/
theorem exPlain : ∀ path ∈ [exSquare, exHole], PlainPath intOps exOff exOutline (exArea path) path := by
  have h1 : PlainPath intOps exOff exOutline (exArea exSquare) exSquare :=
    plainPath_of_graph intOps exOff_assumed rfl (g := (offsetGraph exOff exRaw
      (intOps.pathEdges exOutline (exArea exSquare) exSquare)).getD ⟨[], []⟩)
      (by decide +kernel) (by decide +kernel) (by decide +kernel) (atMostTwo_of_mem (by decide +kernel)) (by decide +kernel)
  have h2 : PlainPath intOps exOff exOutline (exArea exHole) exHole :=
    plainPath_of_graph intOps exOff_assumed rfl (g := (offsetGraph exOff exRaw
      (intOps.pathEdges exOutline (exArea exHole) exHole)).getD ⟨[], []⟩)
      (by decide +kernel) (by decide +kernel) (by decide +kernel) (atMostTwo_of_mem (by decide +kernel)) (by decide +kernel)
  intro path hp
  simp only [List.mem_cons, List.not_mem_nil, or_false] at hp
  rcases hp with rfl | rfl
  · exact h1
  · exact h2

def exParts : List (List (List Pt)) :=
  [[[⟨-10, 100⟩, ⟨-10, 0⟩, ⟨0, -10⟩, ⟨100, -10⟩, ⟨110, 0⟩, ⟨110, 100⟩, ⟨100, 110⟩, ⟨0, 110⟩]],
    [[⟨65, 65⟩, ⟨65, 35⟩, ⟨35, 35⟩, ⟨35, 65⟩]]]

/-- The other hypotheses of `C52_outline_many`, and its result. -/
example : [exSquare, exHole].mapM (intOps.outlinePart exOff exRaw exArea exOutline) = some exParts ∧
    (∀ c ∈ exParts.flatten, NotClosedExplicitly c) ∧
    (roundMarks exConfig.sr.radius (listPairs (mergeIfNeeded (sortSegs
      (overlaySegments exParts.flatten [] : List (Seg CountBool)))))).2 = false ∧
    (∃ links, buildBoolean (isIncluded .subject) .positive exConfig.st exConfig.sr exConfig.tree exConfig.scan exConfig.fuel
      (overlaySegments exParts.flatten []) = some links ∧ AtMostTwoRight (links.map fun l => (l.a, l.b))) ∧
    intOps.outline exOff exConfig exRaw exArea exOutline true 0 [exSquare, exHole] =
      some [[[⟨-10, 0⟩, ⟨-10, 100⟩, ⟨0, 110⟩, ⟨100, 110⟩, ⟨110, 100⟩, ⟨110, 0⟩, ⟨100, -10⟩, ⟨0, -10⟩],
        [⟨35, 65⟩, ⟨35, 35⟩, ⟨65, 35⟩, ⟨65, 65⟩]]] :=
  ⟨by decide +kernel, by decide +kernel, by decide +kernel,
    ⟨(buildBoolean (isIncluded .subject) .positive exConfig.st exConfig.sr exConfig.tree exConfig.scan exConfig.fuel
      (overlaySegments exParts.flatten [])).getD [], by decide +kernel, atMostTwo_of_mem (by decide +kernel)⟩,
    by decide +kernel⟩

/-- A single path; the same path clockwise is ignored. -/
example : intOps.outline exOff exConfig exRaw exArea exOutline false 0 [exSquare] =
    some [[[⟨-10, 100⟩, ⟨-10, 0⟩, ⟨0, -10⟩, ⟨100, -10⟩, ⟨110, 0⟩, ⟨110, 100⟩, ⟨100, 110⟩, ⟨0, 110⟩]]] ∧
    intOps.outline exOff exConfig exRaw exArea exOutline false 0 [exSquare.reverse] = some [] :=
  ⟨by decide +kernel, by decide +kernel⟩

end IOverlay
