/-
C78 for slicing and clipping: parts far apart do not influence each other.
-/
import Verif.Props.Apart

namespace IOverlay

/-- A shape and lines consisting of two parts in two rectangles separated by a vertical or a horizontal line. -/
structure SeparatedLines (A B : Box) (shape paths contours shapeA pathsA contoursA shapeB pathsB contoursB : List (List Pt)) :
    Prop where
  shape : shape.Perm (shapeA ++ shapeB)
  paths : paths.Perm (pathsA ++ pathsB)
  contours : contours.Perm (contoursA ++ contoursB)
  inA : ∀ c ∈ shapeA ++ pathsA ++ contoursA, ∀ p ∈ c, InRange p ∧ A.Has p
  inB : ∀ c ∈ shapeB ++ pathsB ++ contoursB, ∀ p ∈ c, InRange p ∧ B.Has p
  apart : A.Apart B

section
variable {A B : Box} {shape paths contours shapeA pathsA contoursA shapeB pathsB contoursB : List (List Pt)}
  (h : SeparatedLines A B shape paths contours shapeA pathsA contoursA shapeB pathsB contoursB)
include h

theorem SeparatedLines.symm : SeparatedLines B A shape paths contours shapeB pathsB contoursB shapeA pathsA contoursA :=
  ⟨h.shape.trans List.perm_append_comm, h.paths.trans List.perm_append_comm, h.contours.trans List.perm_append_comm, h.inB,
    h.inA, h.apart.symm⟩

theorem SeparatedLines.segments : (stringSegments shape paths contours).Perm
    (stringSegments shapeA pathsA contoursA ++ stringSegments shapeB pathsB contoursB) := by
  unfold stringSegments
  have h1 := h.shape.flatMap_right (appendContour (C := CountStr) .subject)
  have h2 := h.paths.flatMap_right addStringPath
  have h3 := h.contours.flatMap_right addStringContour
  rw [List.flatMap_append] at h1 h2 h3
  refine ((h1.append h2).append h3).trans ?_
  rw [List.perm_iff_count]
  intro s
  simp only [List.count_append]
  omega

theorem SeparatedLines.ends : ∀ s ∈ stringSegments shape paths contours,
    (InRange s.a ∧ InRange s.b) ∧ (A.HasSeg s ∨ B.HasSeg s) := by
  intro s hs
  rcases List.mem_append.1 (h.segments.mem_iff.1 hs) with g | g
  · obtain ⟨e1, e2⟩ := stringSegments_ends h.inA s g
    exact ⟨⟨e1.1, e2.1⟩, Or.inl ⟨e1.2, e2.2⟩⟩
  · obtain ⟨e1, e2⟩ := stringSegments_ends h.inB s g
    exact ⟨⟨e1.1, e2.1⟩, Or.inr ⟨e1.2, e2.2⟩⟩

theorem SeparatedLines.twoParts : TwoParts A B (mergeIfNeeded (sortSegs (stringSegments shape paths contours))) := by
  refine ⟨start_sorted _, start_lt (stringSegments_lt _ _ _), ?_, ?_, ?_⟩
  · exact start_ends fun s hs => (h.ends s hs).1
  · intro s hs
    exact ((mergeIfNeeded_mem _ (sortSegs_sorted _) fun t ht => stringSegments_nonempty shape paths contours t
      ((sortSegs_perm _).mem_iff.1 ht)) s |>.1 hs).2
  · intro s hs
    obtain ⟨e, h1, h2, h3⟩ := mergeIfNeeded_edges _ s hs
    rw [(sortSegs_perm _).mem_iff] at h1
    unfold Box.HasSeg
    rw [h2, h3]
    exact (h.ends e h1).2

theorem SeparatedLines.start : inBox A (mergeIfNeeded (sortSegs (stringSegments shape paths contours))) =
    mergeIfNeeded (sortSegs (stringSegments shapeA pathsA contoursA)) := by
  unfold inBox
  rw [merge_filter A.has (stringSegments_nonempty shape paths contours)]
  refine mergeIfNeeded_perm ?_ (sortSegs_sorted _) (sortSegs_sorted _) ?_
  · refine (sortSegs_perm _).trans (List.Perm.trans ?_ (sortSegs_perm _).symm)
    refine (h.segments.filter _).trans ?_
    rw [List.filter_append, List.filter_eq_self.2, List.filter_eq_nil_iff.2, List.append_nil]
    · intro s hs hA
      exact h.apart.not_has (Box.has_iff.1 hA) (stringSegments_ends h.inB s hs).1.2
    · intro s hs
      exact Box.has_iff.2 (stringSegments_ends h.inA s hs).1.2
  · intro s hs
    exact stringSegments_nonempty shape paths contours s (List.mem_filter.1 ((sortSegs_perm _).mem_iff.1 hs)).1

end

theorem noded_list_lines {st : Strategy} {sr : SnapRadius} {tree : TreeOracle CountStr} (ht : tree.Ok) {fuel : Nat}
    {shape paths contours : List (List Pt)} {segs : List (Seg CountStr)} (hf : FragOk st sr (stringSegments shape paths contours))
    (h : nodedEdges st sr tree fuel (stringSegments shape paths contours) = some segs) (hn : st = .list ∨ 2 < segs.length) :
    ∃ n, splitLoop .list tree n .list sr (mergeIfNeeded (sortSegs (stringSegments shape paths contours))) = some segs := by
  unfold nodedEdges at h
  split at h
  · rename_i h0
    rw [List.isEmpty_iff] at h0
    obtain rfl := Option.some.inj h
    refine ⟨1, ?_⟩
    rw [h0]
    rfl
  · exact ⟨fuel, noded_to_list_many ht (stringSegments_lt shape paths contours) hf hn h⟩

/-- C78 (lines, noding): the edges of a part are the edges of the whole in its rectangle. -/
theorem C78_noded_lines {A B : Box} {shape paths contours shapeA pathsA contoursA shapeB pathsB contoursB : List (List Pt)}
    (h : SeparatedLines A B shape paths contours shapeA pathsA contoursA shapeB pathsB contoursB) {st stA : Strategy}
    {sr : SnapRadius} {tree treeA : TreeOracle CountStr} (ht : tree.Ok) (htA : treeA.Ok) {fuel fuelA : Nat}
    (hf : FragOk st sr (stringSegments shape paths contours)) (hfA : FragOk stA sr (stringSegments shapeA pathsA contoursA))
    {r rA : List (Seg CountStr)} (hr : nodedEdges st sr tree fuel (stringSegments shape paths contours) = some r)
    (hn : st = .list ∨ 2 < r.length)
    (hrA : nodedEdges stA sr treeA fuelA (stringSegments shapeA pathsA contoursA) = some rA) (hnA : stA = .list ∨ 2 < rA.length) :
    rA = r.filter (fun s => A.has s.a) ∧ ∀ s ∈ r, (A.Has s.a ∧ A.Has s.b) ∨ (B.Has s.a ∧ B.Has s.b) := by
  obtain ⟨n, e⟩ := noded_list_lines ht hf hr hn
  obtain ⟨m, eA⟩ := noded_list_lines htA hfA hrA hnA
  have p := h.twoParts.loop_part CountStr.invert_nonempty h.apart (tree' := treeA) n e
  rw [h.start] at p
  refine ⟨?_, ?_⟩
  · have p1 := splitLoop_mono _ _ _ _ _ _ _ p (max n m) (le_max_left _ _)
    have p2 := splitLoop_mono _ _ _ _ _ _ _ eA (max n m) (le_max_right _ _)
    rw [p1] at p2
    exact (Option.some.inj p2).symm
  · exact h.twoParts.loop_sides CountStr.invert_nonempty h.apart n e

/-- Points close to the middle of an edge in one rectangle are outside of the other one. -/
theorem near_outside {A B : Box} (hAB : A.Apart B) {a b : Pt} (ha : A.Has a) (hb : A.Has b) {δ : ℚ} (d0 : 0 < δ) (d1 : δ < 1) :
    ¬ B.HasQ (leftOf a b ⟨((a.x:ℚ) + b.x) / 2, ((a.y:ℚ) + b.y) / 2⟩ δ) ∧
    ¬ B.HasQ (rightOf a b ⟨((a.x:ℚ) + b.x) / 2, ((a.y:ℚ) + b.y) / 2⟩ δ) := by
  obtain ⟨a1, a2, a3, a4⟩ := ha
  obtain ⟨b1, b2, b3, b4⟩ := hb
  have a1' : (A.x0 : ℚ) ≤ a.x := by exact_mod_cast a1
  have a2' : (a.x : ℚ) ≤ A.x1 := by exact_mod_cast a2
  have a3' : (A.y0 : ℚ) ≤ a.y := by exact_mod_cast a3
  have a4' : (a.y : ℚ) ≤ A.y1 := by exact_mod_cast a4
  have b1' : (A.x0 : ℚ) ≤ b.x := by exact_mod_cast b1
  have b2' : (b.x : ℚ) ≤ A.x1 := by exact_mod_cast b2
  have b3' : (A.y0 : ℚ) ≤ b.y := by exact_mod_cast b3
  have b4' : (b.y : ℚ) ≤ A.y1 := by exact_mod_cast b4
  have gap : ∀ {u v : Int}, u < v → (u : ℚ) + 1 ≤ v := fun h => by exact_mod_cast h
  constructor
  all_goals
    rintro ⟨c1, c2, c3, c4⟩
    first | unfold rightOf at c1 c2 c3 c4 | unfold leftOf at c1 c2 c3 c4
    rcases hAB with g | g | g | g
    all_goals
      have g' := gap g
      split_ifs at c1 c2 c3 c4 <;> dsimp only at c1 c2 c3 c4 <;> linarith

/-- The piece lies in the rectangle. -/
def pieceIn (A : Box) (e : Pt × Pt) : Bool := A.has e.1 && A.has e.2

/-- C78 (clipping): the lines returned for a part consist of the pieces in its rectangle of the lines returned for the whole. -/
theorem C78_clip {A B : Box} {shape paths contours shapeA pathsA contoursA shapeB pathsB contoursB : List (List Pt)}
    (h : SeparatedLines A B shape paths contours shapeA pathsA contoursA shapeB pathsB contoursB) (clip : ClipRule)
    (rule : FillRule) {st stA : Strategy} {sr : SnapRadius} {tree treeA : TreeOracle CountStr} (ht : tree.Ok) (htA : treeA.Ok)
    {sc scA : ScanOracle CountStr} (hsc : sc.Ok) (hscA : scA.Ok) {fuel fuelA : Nat} {sortE sortEA : List End → List End}
    (hE : EndSort sortE) (hEA : EndSort sortEA) (hf : FragOk st sr (stringSegments shape paths contours))
    (hfA : FragOk stA sr (stringSegments shapeA pathsA contoursA))
    (hn : st = .list ∨ ∀ r, nodedEdges st sr tree fuel (stringSegments shape paths contours) = some r → 2 < r.length)
    (hnA : stA = .list ∨ ∀ r, nodedEdges stA sr treeA fuelA (stringSegments shapeA pathsA contoursA) = some r → 2 < r.length)
    {out outA : List (List Pt)}
    (ho : clipLines clip rule st sr tree sc fuel sortE (stringSegments shape paths contours) = some out)
    (hoA : clipLines clip rule stA sr treeA scA fuelA sortEA (stringSegments shapeA pathsA contoursA) = some outA) :
    (outA.flatMap fun p => p.zip p.tail).Perm ((out.flatMap fun p => p.zip p.tail).filter (pieceIn A)) := by
  obtain ⟨r, hr⟩ := clip_noded ho
  obtain ⟨rA, hrA⟩ := clip_noded hoA
  have n1 : st = .list ∨ 2 < r.length := hn.imp_right fun h => h r hr
  have n2 : stA = .list ∨ 2 < rA.length := hnA.imp_right fun h => h rA hrA
  obtain ⟨e, hs⟩ := C78_noded_lines h ht htA hf hfA hr n1 hrA n2
  change rA = inBox A r at e
  obtain ⟨-, hcl⟩ := string_planar ht hf hr n1
  obtain ⟨o, K, a1, -, a3, a4⟩ := C29_clip clip rule st sr tree ht sc hsc fuel sortE hE shape paths contours hf r hr n1
  obtain ⟨o', K', b1, -, b3, b4⟩ := C29_clip clip rule stA sr treeA htA scA hscA fuelA sortEA hEA _ _ _ hfA rA hrA n2
  rw [ho] at a1
  rw [hoA] at b1
  obtain rfl := Option.some.inj a1
  obtain rfl := Option.some.inj b1
  refine b3.trans (List.Perm.trans ?_ (a3.symm.filter _))
  have hK : ∀ s ∈ rA, s.pieces ≠ [] → K' s = K s := by
    intro s hsA hne
    have hL : s.c.back = true ∨ s.c.fwd = true := by
      by_contra hc
      push Not at hc
      exact hne (by unfold Seg.pieces; simp [hc.1, hc.2])
    rw [e] at hsA
    obtain ⟨m1, m2⟩ := List.mem_filter.1 hsA
    have htA : A.HasSeg s := by
      rcases hs s m1 with g | g
      · exact g
      · exact absurd g.1 (h.apart.not_has (Box.has_iff.1 m2))
    have hm : inSeg ⟨((s.a.x:ℚ) + s.b.x) / 2, ((s.a.y:ℚ) + s.b.y) / 2⟩ s.a s.b :=
      ⟨1/2, by norm_num, by norm_num, by simp; ring, by simp; ring⟩
    obtain ⟨ε, e0, he⟩ := a4 s m1 hL _ hm
    obtain ⟨ε', e0', he'⟩ := b4 s (by rw [e]; exact hsA) hL _ hm
    obtain ⟨δ, d0, d1, d2, d3⟩ : ∃ δ : ℚ, 0 < δ ∧ δ < ε ∧ δ < ε' ∧ δ < 1 := by
      refine ⟨min (min ε ε') 1 / 2, by positivity, ?_, ?_, ?_⟩
      all_goals
        have hpos : 0 < min (min ε ε') 1 := by positivity
        have l1 := min_le_left (min ε ε') 1
        have l2 := min_le_right (min ε ε') 1
        have l3 := min_le_left ε ε'
        have l4 := min_le_right ε ε'
        linarith
    obtain ⟨o1, o2⟩ := near_outside h.apart htA.1 htA.2 d0 d3
    have k1 := he δ d0 d1
    have k2 := he' δ d0 d2
    rw [segsWind_part h.apart hcl hs o1, segsWind_part h.apart hcl hs o2, ← e, ← k2] at k1
    rw [Bool.eq_iff_iff, k1]
  have pin : ∀ s : Seg CountStr, ∀ p ∈ s.pieces, p = (s.a, s.b) ∨ p = (s.b, s.a) := by
    intro s p hp
    unfold Seg.pieces at hp
    revert hp
    cases s.c.back <;> cases s.c.fwd <;> simp <;> tauto
  have main : ∀ l : List (Seg CountStr), (∀ s ∈ l, s ∈ r) →
      ((l.filter fun s => A.has s.a).filter K').flatMap Seg.pieces = ((l.filter K).flatMap Seg.pieces).filter (pieceIn A) := by
    intro l hl
    induction l with
    | nil => rfl
    | cons s l ih =>
      have ih := ih fun t ht => hl t (List.mem_cons_of_mem _ ht)
      have hb := has_both h.apart (hs s (hl s (by simp)))
      have hpi : ∀ p ∈ s.pieces, pieceIn A p = A.has s.a := by
        intro p hp
        rcases pin s p hp with rfl | rfl <;> simp [pieceIn, ← hb]
      rw [List.filter_cons]
      by_cases hA : A.has s.a = true
      · rw [if_pos hA, List.filter_cons, List.filter_cons]
        have hmA : s ∈ rA := by rw [e]; exact List.mem_filter.2 ⟨hl s (by simp), hA⟩
        by_cases hp : s.pieces = []
        · split_ifs <;> (try simp only [List.flatMap_cons, hp, List.nil_append]) <;> exact ih
        · rw [hK s hmA hp]
          split_ifs
          · rw [List.flatMap_cons, List.flatMap_cons, List.filter_append, ih, (List.filter_eq_self (l := s.pieces)).2]
            intro p hp
            rw [hpi p hp, hA]
          · exact ih
      · rw [if_neg hA, ih, List.filter_cons]
        split_ifs
        · rw [List.flatMap_cons, List.filter_append, (List.filter_eq_nil_iff (l := s.pieces)).2, List.nil_append]
          intro p hp
          rw [hpi p hp]
          exact hA
        · rfl
  rw [e]
  unfold inBox
  rw [main r fun s hs => hs]

theorem slice_noded {x : Externals} {order : List Pt → Bool} {rule : FillRule} {st : Strategy} {sr : SnapRadius}
    {tree : TreeOracle CountStr} {sc : ScanOracle CountStr} {fuel : Nat} {shape paths contours : List (List Pt)}
    {shapes : List (List (List Pt))} (h : sliceBy x order rule st sr tree sc fuel shape paths contours = some shapes) :
    ∃ r, nodedEdges st sr tree fuel (stringSegments shape paths contours) = some r := by
  unfold sliceBy stringGraph buildString at h
  unfold nodedEdges
  split
  · exact ⟨_, rfl⟩
  · rename_i he
    rw [if_neg he] at h
    rcases e : splitSegments st sr tree fuel (stringSegments shape paths contours) with _ | r
    · rw [e] at h; simp at h
    · exact ⟨r, rfl⟩

/-- C78 (slicing): outside the rectangle of the other part, the slices of the whole wind around every point as the slices of
the part alone; around points outside the rectangle of the part the slices of the part do not wind. -/
theorem C78_slice {A B : Box} {shape paths contours shapeA pathsA contoursA shapeB pathsB contoursB : List (List Pt)}
    (h : SeparatedLines A B shape paths contours shapeA pathsA contoursA shapeB pathsB contoursB) (x xA : Externals)
    (order orderA : List Pt → Bool) (ho : OrderOk order) (hoA : OrderOk orderA) (rule : FillRule) {st stA : Strategy}
    {sr : SnapRadius} {tree treeA : TreeOracle CountStr} (ht : tree.Ok) (htA : treeA.Ok)
    {sc scA : ScanOracle CountStr} (hsc : sc.Ok) (hscA : scA.Ok) {fuel fuelA : Nat} (hE : EndSort x.sortE)
    (hEA : EndSort xA.sortE) (hf : FragOk st sr (stringSegments shape paths contours))
    (hfA : FragOk stA sr (stringSegments shapeA pathsA contoursA))
    (hn : st = .list ∨ ∀ r, nodedEdges st sr tree fuel (stringSegments shape paths contours) = some r → 2 < r.length)
    (hnA : stA = .list ∨ ∀ r, nodedEdges stA sr treeA fuelA (stringSegments shapeA pathsA contoursA) = some r → 2 < r.length)
    {shapes shapesA : List (List (List Pt))} (hs : sliceBy x order rule st sr tree sc fuel shape paths contours = some shapes)
    (hsA : sliceBy xA orderA rule stA sr treeA scA fuelA shapeA pathsA contoursA = some shapesA) (q : QPt) :
    (¬ B.HasQ q → polysWind shapes.flatten q = polysWind shapesA.flatten q) ∧
    (¬ A.HasQ q → polysWind shapesA.flatten q = 0) := by
  obtain ⟨r, hr⟩ := slice_noded hs
  obtain ⟨rA, hrA⟩ := slice_noded hsA
  have n1 : st = .list ∨ 2 < r.length := hn.imp_right fun h => h r hr
  have n2 : stA = .list ∨ 2 < rA.length := hnA.imp_right fun h => h rA hrA
  obtain ⟨e, hsd⟩ := C78_noded_lines h ht htA hf hfA hr n1 hrA n2
  change rA = inBox A r at e
  obtain ⟨-, hcl⟩ := string_planar ht hf hr n1
  obtain ⟨-, -, w, -⟩ := C58_slice_shapes x order ho rule st sr tree ht sc hsc fuel hE shape paths contours hf r hr n1 shapes hs
  obtain ⟨-, -, wA, -⟩ := C58_slice_shapes xA orderA hoA rule stA sr treeA htA scA hscA fuelA hEA _ _ _ hfA rA hrA n2 shapesA hsA
  constructor
  · intro hq
    rw [w, wA, e, segsWind_part h.apart hcl hsd hq]
  · intro hq
    have hA : ∀ t ∈ inBox A r, A.Has t.a ∧ A.Has t.b := by
      intro t ht
      obtain ⟨m1, m2⟩ := List.mem_filter.1 ht
      rcases hsd t m1 with g | g
      · exact g
      · exact absurd g.1 (h.apart.not_has (Box.has_iff.1 m2))
    rw [wA, e, segsWind_outside (closed_inBox h.apart hcl hsd) hA hq]
    cases rule <;> rfl

/-! ### examples -/

/-- A triangle and a line in each of two rectangles; the crossings are rounded. -/
def exFarLines : SeparatedLines ⟨0, 90, -30, 50⟩ ⟨0, 90, 60, 150⟩
    [[⟨0, 0⟩, ⟨71, 0⟩, ⟨71, 50⟩], [⟨0, 70⟩, ⟨71, 70⟩, ⟨70, 120⟩]] [[⟨20, 60⟩, ⟨33, 140⟩], [⟨20, -30⟩, ⟨33, 40⟩]] []
    [[⟨0, 0⟩, ⟨71, 0⟩, ⟨71, 50⟩]] [[⟨20, -30⟩, ⟨33, 40⟩]] [] [[⟨0, 70⟩, ⟨71, 70⟩, ⟨70, 120⟩]] [[⟨20, 60⟩, ⟨33, 140⟩]] [] :=
  ⟨List.Perm.refl _, List.Perm.swap _ _ _, List.Perm.refl _, by unfold InRange Box.Has; decide, by unfold InRange Box.Has; decide,
    Or.inr (Or.inr (Or.inl (by decide)))⟩

example :
    let run := fun segs => clipLines ⟨false, true⟩ .nonZero .list ⟨0, 1⟩ (bruteTree CountStr) listScanOracle 3 exRaw.sortE segs
    run (stringSegments [[⟨0, 0⟩, ⟨71, 0⟩, ⟨71, 50⟩]] [[⟨20, -30⟩, ⟨33, 40⟩]] []) = some [[⟨25, 0⟩, ⟨29, 21⟩]] ∧
    run (stringSegments [[⟨0, 0⟩, ⟨71, 0⟩, ⟨71, 50⟩], [⟨0, 70⟩, ⟨71, 70⟩, ⟨70, 120⟩]] [[⟨20, 60⟩, ⟨33, 140⟩], [⟨20, -30⟩, ⟨33, 40⟩]] [])
      = some [[⟨21, 70⟩, ⟨24, 87⟩], [⟨25, 0⟩, ⟨29, 21⟩]] :=
  ⟨by decide +kernel, by decide +kernel⟩

end IOverlay
