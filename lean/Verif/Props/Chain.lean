/-
C57: operations on results of operations. A result can be processed again without any rounding; with horizontal and
vertical edges whole expressions of operations are exact.
-/
import Verif.Chain

namespace IOverlay

/-- What is assumed of the cleaning of contours: no new points, edges run along the given ones. -/
structure CleanAssumed (x : Externals) : Prop where
  points : ∀ c, ∀ p ∈ (x.clean c).1, p ∈ c
  edges : CleanEdges x.clean

/-- `shapes` is returned for these contours, in one shot or from a prebuilt graph. -/
def IsResult (k : Config) (x : Externals) (r : OverlayRule) (rule : FillRule) (cw : Bool) (minArea : Nat)
    (subj clip : List (List Pt)) (shapes : List (List (List Pt))) : Prop :=
  overlayCustom k x r rule cw minArea (overlaySegments subj clip) = some shapes ∨
  ∃ g, intoGraph k x rule (overlaySegments subj clip) = some g ∧ extractShapesCustom x g r cw minArea = some shapes

section
variable {k : Config} {x : Externals} (ha : Assumed k x) {r : OverlayRule} {rule : FillRule} {cw : Bool} {minArea : Nat}
  {subj clip : List (List Pt)} (hf : FragFor k subj clip) {shapes : List (List (List Pt))}
include ha hf

theorem IsResult.run (h : IsResult k x r rule cw minArea subj clip shapes) :
    ∃ segs g V vis, nodedEdges k.st k.sr k.tree k.fuel (overlaySegments subj clip) = some segs ∧
      RunOk rule r segs g V vis ∧ extract x g r cw minArea vis = some shapes := by
  rcases h with h | ⟨g, h1, h2⟩
  · exact extract_oneShot ha hf h
  · obtain ⟨segs, V, vis, h⟩ := extract_graph ha hf h1 h2
    exact ⟨segs, g, V, vis, h⟩

theorem IsResult.winding (h : IsResult k x r rule cw 0 subj clip shapes) :
    ∃ segs, nodedEdges k.st k.sr k.tree k.fuel (overlaySegments subj clip) = some segs ∧
      ∀ q : QPt, polysWind shapes.flatten q = outerTurn cw *
        if r.op (rule.inside (segsWind CountBool.subj segs q)) (rule.inside (segsWind CountBool.clip segs q))
        then 1 else 0 := by
  rcases h with h | ⟨g, h1, h2⟩
  · exact (C41_overlay k x ha r rule cw subj clip hf shapes h).2
  · exact (C41_graph k x ha r rule cw subj clip hf g shapes h1 h2).2

/-- C57: the edges of a result meet in whole points only, no contour repeats its first point, all coordinates are in the
range of the input. -/
theorem C57_result (hc : CleanAssumed x) (hin : ∀ c ∈ subj ++ clip, ∀ p ∈ c, InRange p)
    (h : IsResult k x r rule cw minArea subj clip shapes) :
    (∀ c ∈ shapes.flatten, ∀ p ∈ c, InRange p) ∧ (∀ c ∈ shapes.flatten, NotClosedExplicitly c) ∧
    WholeCrossings (shapes.flatten.flatMap polyEdges) := by
  obtain ⟨segs, g, V, vis, h1, h2, h3⟩ := h.run ha hf
  have hal := h2.along cw hc.edges h3
  refine ⟨?_, fun c hc' => notClosed_of_edges fun e he => (hal c hc' e he).1, ?_⟩
  · have hb := C44_split k.st k.sr k.tree ha.tree k.fuel subj clip (-2 ^ 30) (2 ^ 30) (-2 ^ 30) (2 ^ 30)
      (fun c hc' p hp => ⟨hin c hc' p hp, by
        obtain ⟨a1, a2, a3, a4⟩ := hin c hc' p hp
        exact ⟨a1.le, a2.le, a3.le, a4.le⟩⟩) segs h1
    intro c hc' p hp
    obtain ⟨s, hs, hcs⟩ := List.mem_flatten.1 hc'
    obtain ⟨e, he, he'⟩ := h2.vertices cw hc.points h3 s hs c hcs p hp
    rcases he' with rfl | rfl
    · exact (hb e he).1.1
    · exact (hb e he).2.1
  · refine h2.edges.planar.whole.along ?_
    intro e he
    obtain ⟨c, hc', hec⟩ := List.mem_flatMap.1 he
    exact hal c hc' e hec

end

/-- C57: whatever rounding the first operation did, processing its result again is exact: for every fill rule, strategy,
precision, and direction (not nec. those of the first operation) exactly the points stay that the fill rule selects. -/
theorem C57_again (k k' : Config) (x x' : Externals) (ha : Assumed k x) (ha' : Assumed k' x') (hc : CleanAssumed x)
    (r r' : OverlayRule) (rule rule' : FillRule) (cw cw' : Bool) (minArea : Nat) (subj clip : List (List Pt))
    (hf : FragFor k subj clip) (hin : ∀ c ∈ subj ++ clip, ∀ p ∈ c, InRange p) (shapes shapes' : List (List (List Pt)))
    (hf' : FragFor k' shapes.flatten []) (hr : ∀ b, r'.op b false = b)
    (h : IsResult k x r rule cw minArea subj clip shapes)
    (h' : IsResult k' x' r' rule' cw' 0 shapes.flatten [] shapes') (q : QPt) :
    polysWind shapes'.flatten q = outerTurn cw' * if rule'.inside (polysWind shapes.flatten q) then 1 else 0 := by
  obtain ⟨c1, c2, c3⟩ := C57_result ha hf hc hin h
  obtain ⟨segs, h1, h2⟩ := h'.winding ha' hf'
  have e := noded_whole ha'.tree hf' c2 (by simp) (by simpa using c1) (by simpa using c3) h1 q
  have e0 : rule'.inside (polysWind [] q) = false := by cases rule' <;> rfl
  rw [h2, e.1, e.2, e0, hr]

/-- C57 (idempotence): a result simplified again with `EvenOdd` or `NonZero` covers the same points, in the same
direction. -/
theorem C57_idempotent (k k' : Config) (x x' : Externals) (ha : Assumed k x) (ha' : Assumed k' x') (hc : CleanAssumed x)
    (r : OverlayRule) (rule rule' : FillRule) (hr : rule' = .evenOdd ∨ rule' = .nonZero) (cw : Bool)
    (subj clip : List (List Pt)) (hf : FragFor k subj clip) (hin : ∀ c ∈ subj ++ clip, ∀ p ∈ c, InRange p)
    (shapes shapes' : List (List (List Pt))) (hf' : FragFor k' shapes.flatten [])
    (h : IsResult k x r rule cw 0 subj clip shapes)
    (h' : IsResult k' x' .subject rule' cw 0 shapes.flatten [] shapes') (q : QPt) :
    polysWind shapes'.flatten q = polysWind shapes.flatten q := by
  rw [C57_again k k' x x' ha ha' hc r .subject rule rule' cw cw 0 subj clip hf hin shapes shapes' hf' (fun b => rfl) h h' q]
  obtain ⟨segs, -, h2⟩ := h.winding ha hf
  rw [h2 q]
  split <;> rcases hr with rfl | rfl <;> cases cw <;> decide

/-- C57: if the crossings of the given contours are whole, the edges of the result run on the given edges. -/
theorem C57_edges (k : Config) (x : Externals) (ha : Assumed k x) (hc : CleanAssumed x) (r : OverlayRule) (rule : FillRule)
    (cw : Bool) (minArea : Nat) (subj clip : List (List Pt)) (hf : FragFor k subj clip)
    (hns : ∀ c ∈ subj ++ clip, NotClosedExplicitly c)
    (hin : ∀ c ∈ subj ++ clip, ∀ p ∈ c, InRange p) (hw : WholeCrossings ((subj ++ clip).flatMap polyEdges))
    (shapes : List (List (List Pt))) (h : IsResult k x r rule cw minArea subj clip shapes) :
    ∀ c ∈ shapes.flatten, ∀ e ∈ polyEdges c, ∀ q, onSeg q e.1 e.2 →
      ∃ f ∈ (subj ++ clip).flatMap polyEdges, onSeg q f.1 f.2 := by
  obtain ⟨segs, g, V, vis, h1, h2, h3⟩ := h.run ha hf
  have hal := noded_along ha.tree hf (fun c hc => hns c (List.mem_append_left _ hc))
    (fun c hc => hns c (List.mem_append_right _ hc)) hin hw h1
  intro c hc' e he q hq
  refine Along.on (a := e.1) (b := e.2) ((h2.along cw hc.edges h3 c hc' e he).2.comp ?_) hq
  intro f hf
  obtain ⟨s, hs, rfl⟩ := List.mem_map.1 hf
  exact hal s hs

/-- C57: results for contours with horizontal and vertical edges have horizontal and vertical edges. -/
theorem C57_rectilinear (k : Config) (x : Externals) (ha : Assumed k x) (hc : CleanAssumed x) (r : OverlayRule)
    (rule : FillRule) (cw : Bool) (minArea : Nat) (subj clip : List (List Pt)) (hf : FragFor k subj clip)
    (hns : ∀ c ∈ subj ++ clip, NotClosedExplicitly c)
    (hin : ∀ c ∈ subj ++ clip, ∀ p ∈ c, InRange p) (hre : ∀ c ∈ subj ++ clip, Rectilinear c)
    (shapes : List (List (List Pt))) (h : IsResult k x r rule cw minArea subj clip shapes) :
    ∀ c ∈ shapes.flatten, Rectilinear c := by
  obtain ⟨segs, g, V, vis, h1, h2, h3⟩ := h.run ha hf
  have hal := noded_along ha.tree hf (fun c hc => hns c (List.mem_append_left _ hc))
    (fun c hc => hns c (List.mem_append_right _ hc)) hin (wholeCrossings_rectilinear hre) h1
  intro c hc' e he
  refine ((h2.along cw hc.edges h3 c hc' e he).2.comp ?_).axis (E := (subj ++ clip).flatMap polyEdges) ?_
  · intro f hf
    obtain ⟨s, hs, rfl⟩ := List.mem_map.1 hf
    exact hal s hs
  · intro f hf
    obtain ⟨d, hd, hfd⟩ := List.mem_flatMap.1 hf
    exact hre d hd f hfd

/-- What a program can compute from contours with horizontal and vertical edges by a sequence of operations, each with its
own solver, direction and rule, in one shot or from a graph; with the points it is meant to select. -/
inductive Computed (rule : FillRule) : List (List Pt) → (QPt → Bool) → Prop
  | given (cs : List (List Pt)) (hns : ∀ c ∈ cs, NotClosedExplicitly c) (hin : ∀ c ∈ cs, ∀ p ∈ c, InRange p)
      (hre : ∀ c ∈ cs, Rectilinear c) : Computed rule cs fun q => rule.inside (polysWind cs q)
  | step {cs ds : List (List Pt)} {P Q : QPt → Bool} (h1 : Computed rule cs P) (h2 : Computed rule ds Q)
      (k : Config) (x : Externals) (ha : Assumed k x) (hc : CleanAssumed x) (r : OverlayRule) (cw : Bool)
      (hf : FragFor k cs ds) (shapes : List (List (List Pt))) (h : IsResult k x r rule cw 0 cs ds shapes) :
      Computed rule shapes.flatten fun q => r.op (P q) (Q q)

/-- What is computed by a sequence of operations can be processed exactly again, and the points are those meant. -/
theorem Computed.ok {rule : FillRule} (hr : rule = .evenOdd ∨ rule = .nonZero) {cs : List (List Pt)}
    {P : QPt → Bool} (h : Computed rule cs P) : (∀ c ∈ cs, NotClosedExplicitly c) ∧ (∀ c ∈ cs, ∀ p ∈ c, InRange p) ∧
      (∀ c ∈ cs, Rectilinear c) ∧ ∀ q, rule.inside (polysWind cs q) = P q := by
  induction h with
  | given cs hns hin hre => exact ⟨hns, hin, hre, fun _ => rfl⟩
  | @step cs ds P Q h1 h2 k x ha hc r cw hf shapes h ih1 ih2 =>
    obtain ⟨a1, a2, a3, a4⟩ := ih1
    obtain ⟨b1, b2, b3, b4⟩ := ih2
    have hns : ∀ c ∈ cs ++ ds, NotClosedExplicitly c := by
      intro c hc; rcases List.mem_append.1 hc with hc | hc
      exacts [a1 c hc, b1 c hc]
    have hin : ∀ c ∈ cs ++ ds, ∀ p ∈ c, InRange p := by
      intro c hc; rcases List.mem_append.1 hc with hc | hc
      exacts [a2 c hc, b2 c hc]
    have hre : ∀ c ∈ cs ++ ds, Rectilinear c := by
      intro c hc; rcases List.mem_append.1 hc with hc | hc
      exacts [a3 c hc, b3 c hc]
    obtain ⟨c1, c2, -⟩ := C57_result ha hf hc hin h
    refine ⟨c2, c1, C57_rectilinear k x ha hc r rule cw 0 cs ds hf hns hin hre shapes h, ?_⟩
    intro q
    obtain ⟨segs, s1, s2⟩ := h.winding ha hf
    have e := noded_whole ha.tree hf a1 b1 hin (wholeCrossings_rectilinear hre) s1 q
    rw [s2 q, e.1, e.2, a4, b4]
    show _ = r.op (P q) (Q q)
    cases r.op (P q) (Q q) <;> rcases hr with rfl | rfl <;> cases cw <;> decide

/-- C57 (expressions): every expression of boolean operations on contours with horizontal and vertical edges is computed
exactly. -/
theorem C57_expressions (rule : FillRule) (hr : rule = .evenOdd ∨ rule = .nonZero) (cs : List (List Pt))
    (P : QPt → Bool) (h : Computed rule cs P) : ∀ q, rule.inside (polysWind cs q) = P q :=
  (h.ok hr).2.2.2

/-! ### examples -/

theorem exRaw_clean : CleanAssumed exRaw := ⟨fun _ _ h => h, Keeps.edges fun _ _ => rfl⟩

/-- A first operation whose crossing is rounded, and the second one on its result: it gives the same contours. -/
example :
    let subj : List (List Pt) := [[⟨0, 0⟩, ⟨7, 0⟩, ⟨7, 5⟩]];
    let clip : List (List Pt) := [[⟨2, -3⟩, ⟨5, -3⟩, ⟨3, 4⟩]];
    let shapes : List (List (List Pt)) := [[[⟨3, 2⟩, ⟨2, 0⟩, ⟨4, 0⟩]]];
    (roundMarks exConfig.sr.radius (listPairs (mergeIfNeeded (sortSegs
      (overlaySegments subj clip : List (Seg CountBool)))))).2 = true ∧
    IsResult exConfig exRaw .intersect .nonZero false 0 subj clip shapes ∧
    IsResult exConfig exRaw .subject .evenOdd false 0 shapes.flatten [] shapes := by
  refine ⟨by decide +kernel, Or.inl (by decide +kernel), Or.inl (by decide +kernel)⟩

/-- An expression of two operations, the first of which leaves a hole. -/
def exChainFrame : List (List Pt) := [[⟨0, 9⟩, ⟨0, 0⟩, ⟨9, 0⟩, ⟨9, 9⟩], [⟨3, 3⟩, ⟨3, 6⟩, ⟨6, 6⟩, ⟨6, 3⟩]]

def exChainParts : List (List (List Pt)) :=
  [[[⟨0, 9⟩, ⟨0, 0⟩, ⟨9, 0⟩, ⟨9, 5⟩, ⟨6, 5⟩, ⟨6, 3⟩, ⟨3, 3⟩, ⟨3, 6⟩, ⟨5, 6⟩, ⟨5, 7⟩, ⟨9, 7⟩, ⟨9, 9⟩]],
    [[⟨5, 6⟩, ⟨5, 5⟩, ⟨6, 5⟩, ⟨6, 6⟩]], [[⟨9, 7⟩, ⟨9, 5⟩, ⟨12, 5⟩, ⟨12, 7⟩]]]

def exChainBox (x0 y0 x1 y1 : Int) : List (List Pt) := [[⟨x0, y0⟩, ⟨x1, y0⟩, ⟨x1, y1⟩, ⟨x0, y1⟩]]

example : Computed .nonZero exChainParts.flatten fun q => OverlayRule.op .xor (OverlayRule.op .difference
      (FillRule.inside .nonZero (polysWind (exChainBox 0 0 9 9) q)) (FillRule.inside .nonZero (polysWind (exChainBox 3 3 6 6) q)))
      (FillRule.inside .nonZero (polysWind (exChainBox 5 5 12 7) q)) := by
  have g1 := Computed.given (rule := .nonZero) (exChainBox 0 0 9 9) (by decide) (by unfold InRange; decide) (by decide)
  have g2 := Computed.given (rule := .nonZero) (exChainBox 3 3 6 6) (by decide) (by unfold InRange; decide) (by decide)
  have g3 := Computed.given (rule := .nonZero) (exChainBox 5 5 12 7) (by decide) (by unfold InRange; decide) (by decide)
  have h1 := Computed.step g1 g2 exConfig exRaw exRaw_assumed.1 exRaw_clean .difference false (FragOk.list _ _) [exChainFrame]
    (Or.inl (by decide +kernel))
  exact Computed.step h1 g3 exConfig exRaw exRaw_assumed.1 exRaw_clean .xor false (FragOk.list _ _) exChainParts
    (Or.inl (by decide +kernel))

end IOverlay
