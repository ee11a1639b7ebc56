/-
C61: without rounding the operations always return, and their results are exact and well formed (total correctness).
-/
import Verif.Props.Chain

namespace IOverlay
variable {C : Type}

/-! ### one round of splitting suffices -/

theorem list_once [WindingCount C] (st : Strategy) (tree : TreeOracle C) (sr : SnapRadius) (segs : List (Seg C))
    (h : (roundMarks sr.radius (listPairs segs)).2 = false) (n : Nat) :
    ∃ r, splitLoop st tree (n + 1) .list sr segs = some r := by
  rw [splitLoop]
  simp only [h, Bool.false_eq_true, if_false]
  split
  · exact ⟨_, rfl⟩
  · split
    · exact ⟨_, rfl⟩
    · exact ⟨_, rfl⟩

theorem treeLoop_once [WindingCount C] (st : Strategy) {tree : TreeOracle C} (ht : tree.Ok) (sr : SnapRadius)
    {segs : List (Seg C)} (hs : segs.Pairwise Seg.lt) (hl : ∀ s ∈ segs, s.a < s.b)
    (h : (roundMarks sr.radius (listPairs segs)).2 = false) (n : Nat) :
    ∃ r, splitLoop st tree (n + 1) .treeLoop sr segs = some r := by
  have e := (covers_round hl (ht segs hs hl) (listPairs_covers segs (sorted_of_strict hs) hl) sr.radius_nonneg).2.1
  rw [splitLoop]
  simp only [e, h, Bool.false_eq_true, if_false]
  split
  · exact ⟨_, rfl⟩
  · split
    · exact ⟨_, rfl⟩
    · exact ⟨_, rfl⟩

theorem tree_once [WindingCount C] (st : Strategy) {tree : TreeOracle C} (ht : tree.Ok) (sr : SnapRadius)
    {segs : List (Seg C)} (hs : segs.Pairwise Seg.lt) (hl : ∀ s ∈ segs, s.a < s.b)
    (h : (roundMarks sr.radius (listPairs segs)).2 = false) (n : Nat) :
    ∃ r, splitLoop st tree (n + 2) .tree sr segs = some r := by
  rw [splitLoop]
  split
  · exact treeLoop_once st ht sr hs hl h n
  · exact list_once st tree sr segs h n

theorem frag_once [WindingCount C] {g : Grid} {segs : List (Seg C)} (hst : FragState g segs) (sr : SnapRadius)
    (hcl : FragClear g sr segs) (h : (roundMarks sr.radius (listPairs segs)).2 = false) (n : Nat) :
    ∃ r, fragLoop g (n + 1) sr segs = some r := by
  obtain ⟨hsafe, h30⟩ := hcl sr segs (.start _ _)
  obtain ⟨-, a2, -⟩ := fragRound_same hst hsafe h30
  rw [fragLoop]
  simp only [a2, h, Bool.false_eq_true, if_false]
  split
  · exact ⟨_, rfl⟩
  · split
    · exact ⟨_, rfl⟩
    · exact ⟨_, rfl⟩

/-- Splitting ends after one round if that round does not round. -/
theorem split_once [WindingCount C] (st : Strategy) {tree : TreeOracle C} (ht : tree.Ok) (sr : SnapRadius)
    {segs : List (Seg C)} (hl : ∀ s ∈ segs, s.a < s.b) (hf : FragOk st sr segs)
    (h : (roundMarks sr.radius (listPairs (mergeIfNeeded (sortSegs segs)))).2 = false) {fuel : Nat} (h2 : 2 ≤ fuel) :
    ∃ r, splitSegments st sr tree fuel segs = some r := by
  obtain ⟨n, rfl⟩ : ∃ n, fuel = n + 2 := ⟨fuel - 2, by omega⟩
  have hs := start_sorted segs
  have hl' := start_lt hl
  unfold splitSegments
  dsimp only
  split
  · exact list_once st tree sr _ h (n + 1)
  · rename_i h1
    split
    · rename_i hfr
      unfold fragSplit
      split
      · exact tree_once st ht sr hs hl' h n
      · rename_i g hg
        obtain ⟨f1, f2⟩ := hf (by simpa using h1) hfr g hg
        exact frag_once ⟨hs, Grid.new_inGrid hs hl' hg, f1⟩ sr f2 h (n + 1)
    · exact tree_once st ht sr hs hl' h n

/-! ### the operations -/

section
variable {k : Config} {x : Externals} (ha : Assumed k x) (hk : 2 ≤ k.fuel) {subj clip : List (List Pt)}
  (hf : FragFor k subj clip) (hns : ∀ c ∈ subj ++ clip, NotClosedExplicitly c)
  (hin : ∀ c ∈ subj ++ clip, ∀ p ∈ c, InRange p) (hw : WholeCrossings ((subj ++ clip).flatMap polyEdges))
include ha hk hf hns hin hw

theorem build_returns (inc : Fill → Bool) (rule : FillRule) :
    ∃ links, buildBoolean inc rule k.st k.sr k.tree k.scan k.fuel (overlaySegments subj clip) = some links := by
  obtain ⟨r, hr⟩ := split_once k.st ha.tree k.sr (overlaySegments_lt (C := CountBool) subj clip) hf
    (overlay_not_round (fun c hc => hns c (List.mem_append_left _ hc)) (fun c hc => hns c (List.mem_append_right _ hc))
      hin hw k.sr.radius) hk
  unfold buildBoolean
  split
  · exact ⟨_, rfl⟩
  · rw [hr]; exact ⟨_, rfl⟩

/-- C61 (one-shot overlay): if the edges of the given contours cross in whole points only, the operation returns. Its
result covers exactly the points selected by the overlay rule and the fill rule, once and counterclockwise; every shape
consists of an outer contour and the holes inside it. -/
theorem C61_overlay (hx : BindAssumed x) (r : OverlayRule) (rule : FillRule) :
    ∃ shapes, overlayCustom k x r rule false 0 (overlaySegments subj clip) = some shapes ∧
      (∀ q, polysWind shapes.flatten q =
        if r.op (rule.inside (polysWind subj q)) (rule.inside (polysWind clip q)) then 1 else 0) ∧
      (∀ sh ∈ shapes, ProperShape sh) := by
  obtain ⟨links, hb⟩ := build_returns ha hk hf hns hin hw (isIncluded r) rule
  obtain ⟨shapes, h⟩ := C43_succeeds_partial k x ha hx r rule subj clip hf links hb
  refine ⟨shapes, h, ?_, ?_⟩
  · intro q
    rw [C56_overlay k x ha r rule false subj clip hf (fun c hc => hns c (List.mem_append_left _ hc))
      (fun c hc => hns c (List.mem_append_right _ hc)) hin hw shapes h q]
    simp [outerTurn]
  · obtain ⟨segs, g, V, vis, -, h2, h3⟩ := extract_oneShot ha hf h
    exact (h2.proper false ha.clean hx h3 (Or.inl rfl)).1

/-- C61 (prebuilt graph): the graph is built, and every rule can be extracted from it. -/
theorem C61_graph (hx : BindAssumed x) (rule : FillRule) :
    ∃ g, intoGraph k x rule (overlaySegments subj clip) = some g ∧
      ∀ r : OverlayRule, ∃ shapes, extractShapesCustom x g r false 0 = some shapes ∧
        (∀ q, polysWind shapes.flatten q =
          if r.op (rule.inside (polysWind subj q)) (rule.inside (polysWind clip q)) then 1 else 0) ∧
        (∀ sh ∈ shapes, ProperShape sh) := by
  obtain ⟨links, hb⟩ := build_returns ha hk hf hns hin hw isGraphIncluded rule
  obtain ⟨segs, g, V, -, q2, -, -⟩ := runOk_graph ha.tree ha.scan .union ha.sortE hf hb
  have hg : intoGraph k x rule (overlaySegments subj clip) = some g := by
    unfold intoGraph
    rw [hb, Option.bind_some, q2]
  refine ⟨g, hg, ?_⟩
  intro r
  obtain ⟨segs', g', V', -, q2', -, q4⟩ := runOk_graph ha.tree ha.scan r ha.sortE hf hb
  rw [q2] at q2'
  obtain rfl := Option.some.inj q2'
  obtain ⟨ws, e, h, -⟩ := q4.extract false x.clean 0
  obtain ⟨shapes, s1, s2, -⟩ := q4.shapes_proper false ha.clean hx h (Or.inl rfl)
  refine ⟨shapes, s1, ?_, s2⟩
  intro q
  rw [C56_graph k x ha r rule false subj clip hf (fun c hc => hns c (List.mem_append_left _ hc))
    (fun c hc => hns c (List.mem_append_right _ hc)) hin hw g shapes hg s1 q]
  simp [outerTurn]

end

/-- C61 (results of results): whatever the first operation was and however it rounded, its result can be processed again;
that always returns. -/
theorem C61_again (k k' : Config) (x x' : Externals) (ha : Assumed k x) (ha' : Assumed k' x') (hk : 2 ≤ k'.fuel)
    (hc : CleanAssumed x) (hx : BindAssumed x')
    (r r' : OverlayRule) (rule rule' : FillRule) (cw : Bool) (minArea : Nat) (subj clip : List (List Pt))
    (hf : FragFor k subj clip) (hin : ∀ c ∈ subj ++ clip, ∀ p ∈ c, InRange p) (shapes : List (List (List Pt)))
    (hf' : FragFor k' shapes.flatten []) (hr : ∀ b, r'.op b false = b)
    (h : IsResult k x r rule cw minArea subj clip shapes) :
    ∃ shapes', overlayCustom k' x' r' rule' false 0 (overlaySegments shapes.flatten []) = some shapes' ∧
      (∀ q, polysWind shapes'.flatten q = if rule'.inside (polysWind shapes.flatten q) then 1 else 0) ∧
      (∀ sh ∈ shapes', ProperShape sh) := by
  obtain ⟨c1, c2, c3⟩ := C57_result ha hf hc hin h
  obtain ⟨s, s1, s2, s3⟩ := C61_overlay ha' hk hf' (by simpa using c2) (by simpa using c1) (by simpa using c3) hx r' rule'
  refine ⟨s, s1, ?_, s3⟩
  intro q
  have e0 : rule'.inside (polysWind [] q) = false := by cases rule' <;> rfl
  rw [s2, e0, hr]

/-! ### expressions -/

/-- An expression of boolean operations on contours. -/
inductive BoolExpr
  | given (cs : List (List Pt))
  | op (r : OverlayRule) (e f : BoolExpr)

/-- The points an expression is meant to select. -/
noncomputable def BoolExpr.selects (rule : FillRule) : BoolExpr → QPt → Bool
  | .given cs, q => rule.inside (polysWind cs q)
  | .op r e f, q => r.op (e.selects rule q) (f.selects rule q)

/-- Evaluation: every operation is an overlay of the contours computed for its parts. -/
def BoolExpr.eval (k : Config) (x : Externals) (rule : FillRule) : BoolExpr → Option (List (List Pt))
  | .given cs => some cs
  | .op r e f => (e.eval k x rule).bind fun cs => (f.eval k x rule).bind fun ds =>
      (overlayCustom k x r rule false 0 (overlaySegments cs ds)).map List.flatten

/-- All contours of the expression are in range, have horizontal and vertical edges only and do not repeat their first
point. -/
def BoolExpr.Axis : BoolExpr → Prop
  | .given cs => ∀ c ∈ cs, NotClosedExplicitly c ∧ (∀ p ∈ c, InRange p) ∧ Rectilinear c
  | .op _ e f => e.Axis ∧ f.Axis

/-- C61 (expressions): every expression of boolean operations on contours with horizontal and vertical edges is
evaluated, and selects exactly the intended points. (For the list strategy, which needs no condition on fragments.) -/
theorem C61_expressions (k : Config) (x : Externals) (ha : Assumed k x) (hk : 2 ≤ k.fuel) (hst : k.st = .list)
    (hc : CleanAssumed x) (hx : BindAssumed x) (rule : FillRule) (hr : rule = .evenOdd ∨ rule = .nonZero) (e : BoolExpr)
    (he : e.Axis) :
    ∃ cs, e.eval k x rule = some cs ∧ ∀ q, rule.inside (polysWind cs q) = e.selects rule q := by
  suffices H : ∃ cs, e.eval k x rule = some cs ∧ Computed rule cs (e.selects rule) ∧
      (BoolExpr.given cs).Axis by
    obtain ⟨cs, h1, h2, -⟩ := H
    exact ⟨cs, h1, C57_expressions rule hr cs _ h2⟩
  induction e with
  | given cs =>
    exact ⟨cs, rfl, .given cs (fun c h => (he c h).1) (fun c h => (he c h).2.1) (fun c h => (he c h).2.2), he⟩
  | op r e f ih1 ih2 =>
    obtain ⟨cs, a1, a2, a3⟩ := ih1 he.1
    obtain ⟨ds, b1, b2, b3⟩ := ih2 he.2
    have hall : ∀ c ∈ cs ++ ds, NotClosedExplicitly c ∧ (∀ p ∈ c, InRange p) ∧ Rectilinear c := by
      intro c hc; rcases List.mem_append.1 hc with hc | hc
      exacts [a3 c hc, b3 c hc]
    have hf : FragFor k cs ds := by unfold FragFor; rw [hst]; exact FragOk.list _ _
    have hns := fun c h => (hall c h).1
    have hin := fun c h => (hall c h).2.1
    have hre := fun c h => (hall c h).2.2
    obtain ⟨shapes, s1, -, -⟩ := C61_overlay ha hk hf hns hin (wholeCrossings_rectilinear hre) hx r rule
    refine ⟨shapes.flatten, ?_, .step a2 b2 k x ha hc r false hf shapes (Or.inl s1), ?_⟩
    · simp only [BoolExpr.eval, a1, b1, Option.bind_some, s1, Option.map_some]
    · obtain ⟨c1, c2, -⟩ := C57_result ha hf hc hin (Or.inl s1)
      have c3 := C57_rectilinear k x ha hc r rule false 0 cs ds hf hns hin hre shapes (Or.inl s1)
      exact fun c h => ⟨c2 c h, c1 c h, c3 c h⟩

/-! ### examples -/

/-- Crossing triangles with whole crossings meet the hypotheses of `C61_overlay` and `C61_graph`. -/
example : Assumed exConfig exRaw ∧ BindAssumed exRaw ∧ 2 ≤ exConfig.fuel ∧ FragFor exConfig exWhole.1 exWhole.2 ∧
    (∀ c ∈ exWhole.1 ++ exWhole.2, NotClosedExplicitly c) ∧ (∀ c ∈ exWhole.1 ++ exWhole.2, ∀ p ∈ c, InRange p) ∧
    WholeCrossings ((exWhole.1 ++ exWhole.2).flatMap polyEdges) :=
  ⟨exRaw_assumed.1, exRaw_assumed.2, by decide, FragOk.list _ _, by decide, by unfold InRange; decide,
    decide_whole (by decide +kernel)⟩

/-- An expression with three operations; `C61_expressions` applies to it. -/
example : (BoolExpr.op .xor (.op .difference (.given (exChainBox 0 0 9 9)) (.given (exChainBox 3 3 6 6)))
    (.op .intersect (.given (exChainBox 5 5 12 7)) (.given (exChainBox 4 2 10 10)))).Axis ∧ exConfig.st = .list := by
  refine ⟨⟨⟨?_, ?_⟩, ?_, ?_⟩, rfl⟩ <;> unfold BoolExpr.Axis InRange <;> decide

end IOverlay
