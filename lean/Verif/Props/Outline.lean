/-
C52: what an outline returns.
-/
import Verif.Outline
import Verif.Props.Mesh
import Verif.Props.Filter

namespace IOverlay
open WindingCount
variable {T P : Type}

/-! ### the registered edges -/

/-- An edge registered by `bold_subject_ab` or `weak_subject_ab`. -/
def Traced (e : Seg CountOff) : Prop := ∃ p q, e = boldAB p q ∨ e = weakAB p q

theorem Traced.nonempty {e : Seg CountOff} (h : Traced e) : isNotEmpty e.c = true := by
  obtain ⟨p, q, rfl | rfl⟩ := h
  · unfold boldAB; split <;> rfl
  · unfold weakAB; split <;> rfl

theorem Traced.lt {e : Seg CountOff} (h : Traced e) (hne : e.a ≠ e.b) : e.a < e.b := by
  obtain ⟨p, q, h⟩ := h
  have : (e.a = p ∧ e.b = q ∧ p < q) ∨ (e.a = q ∧ e.b = p ∧ ¬ p < q) := by
    rcases h with rfl | rfl
    · unfold boldAB
      split
      · rename_i h; exact Or.inl ⟨rfl, rfl, h⟩
      · rename_i h; exact Or.inr ⟨rfl, rfl, h⟩
    · unfold weakAB
      split
      · rename_i h; exact Or.inl ⟨rfl, rfl, h⟩
      · rename_i h; exact Or.inr ⟨rfl, rfl, h⟩
  rcases this with ⟨e1, e2, h⟩ | ⟨e1, e2, h⟩
  · rw [e1, e2]; exact h
  · rw [e1, e2] at hne ⊢
    rcases Pt.lt_tri p q with h' | h' | h'
    · exact absurd h' h
    · exact absurd h'.symm hne
    · exact h'

def AllTraced (l : List (Seg CountOff)) : Prop := ∀ e ∈ l, Traced e

theorem AllTraced.nil : AllTraced [] := by intro e he; cases he
theorem AllTraced.bold (p q : Pt) : AllTraced [boldAB p q] := by
  intro e he; rw [List.mem_singleton] at he; exact ⟨p, q, Or.inl he⟩
theorem AllTraced.weak (p q : Pt) : AllTraced [weakAB p q] := by
  intro e he; rw [List.mem_singleton] at he; exact ⟨p, q, Or.inr he⟩
theorem AllTraced.append {l m : List (Seg CountOff)} (h : AllTraced l) (h' : AllTraced m) : AllTraced (l ++ m) := by
  intro e he
  rcases List.mem_append.1 he with he | he
  · exact h e he
  · exact h' e he
theorem AllTraced.ite {c : Prop} [Decidable c] {l m : List (Seg CountOff)} (h : AllTraced l) (h' : AllTraced m) :
    AllTraced (if c then l else m) := by split <;> assumption

theorem allTraced_arc (ps : List Pt) (a : Pt) : AllTraced (arcLoop boldAB a ps).1 := by
  intro e he
  obtain ⟨p, q, h⟩ := allDrawn_arc (fun a b => ⟨a, b, rfl⟩) ps a e he
  exact ⟨p, q, Or.inl h⟩

section
variable (o : FloatOps T P)

theorem allTraced_weak (s0 s1 : OSection P) : AllTraced (o.joinWeak s0 s1) := .ite (.weak _ _) .nil

theorem allTraced_addJoin (j : Join T) (s0 s1 : OSection P) : AllTraced (o.oAddJoin j s0 s1) := by
  have hw := allTraced_weak o s0 s1
  cases j with
  | bevel => exact hw
  | miter l m e =>
    unfold FloatOps.oAddJoin
    dsimp only
    unfold FloatOps.oMiterJoin
    dsimp only
    refine .ite hw (.ite hw (.ite ?_ ?_))
    · exact ((AllTraced.ite (.bold _ _) .nil).append (.ite (.bold _ _) .nil)).append (.ite (.bold _ _) .nil)
    · split
      · exact .bold _ _
      · exact (AllTraced.bold _ _).append (.bold _ _)
      · exact .nil
  | round l r e =>
    unfold FloatOps.oAddJoin
    dsimp only
    unfold FloatOps.oRoundJoin
    dsimp only
    exact .ite hw (.ite hw ((allTraced_arc _ _).append (.ite (.bold _ _) .nil)))

theorem allTraced_loop (radius : T) (j : Join T) (l : List P) (s0 : OSection P) (ip0 : Pt) :
    AllTraced (o.oLoop radius j s0 ip0 l).1 := by
  induction l generalizing s0 ip0 with
  | nil => exact .nil
  | cons p rest ih =>
    rw [FloatOps.oLoop]
    split
    · exact ih s0 ip0
    · exact ((allTraced_addJoin o j _ _).append (.bold _ _)).append (ih _ _)

theorem allTraced_outline (radius : T) (j : Join T) (path : List P) : AllTraced (o.outlineSegments radius j path) := by
  unfold FloatOps.outlineSegments
  split
  · exact .nil
  · exact .nil
  · dsimp only
    split
    · exact .nil
    · exact (AllTraced.append (.bold _ _) (allTraced_loop o _ _ _ _ _)).append (allTraced_addJoin o j _ _)

end

/-! ### which edges are marked as sides -/

section
variable (o : FloatOps T P)

theorem bold_marks (p q : Pt) : (boldAB p q).c.bold = true ∧ Joins (boldAB p q) p q := by
  unfold boldAB Joins; split <;> simp

theorem weak_marks (p q : Pt) : (weakAB p q).c.bold = false ∧ Joins (weakAB p q) p q := by
  unfold weakAB Joins; split <;> simp

theorem marks_weak (j : Join T) (s0 s1 : OSection P) : j.Marks o s0 s1 (o.joinWeak s0 s1) := by
  unfold FloatOps.joinWeak
  dsimp only
  left
  split
  · exact Or.inr ⟨_, rfl, weak_marks _ _⟩
  · exact Or.inl rfl

theorem marks_addJoin (j : Join T) (s0 s1 : OSection P) : j.Marks o s0 s1 (o.oAddJoin j s0 s1) := by
  have hw := marks_weak o j s0 s1
  have hd : ∀ l : List (Seg CountOff), AllDrawn l → ∀ e ∈ l, e.c.bold = true := fun l h e he => (h e he).bold
  have hb : ∀ p q, AllDrawn [boldAB p q] := by
    intro p q e he; rw [List.mem_singleton] at he; exact ⟨p, q, he⟩
  have hn : AllDrawn [] := by intro e he; cases he
  have hap : ∀ {l m : List (Seg CountOff)}, AllDrawn l → AllDrawn m → AllDrawn (l ++ m) := by
    intro l m h h' e he
    rcases List.mem_append.1 he with he | he
    · exact h e he
    · exact h' e he
  cases j with
  | bevel => exact hw
  | miter l m ex =>
    unfold FloatOps.oAddJoin
    dsimp only
    unfold FloatOps.oMiterJoin
    dsimp only
    split
    · exact hw
    · rename_i hne
      split
      · exact hw
      · refine Or.inr ⟨hd _ ?_, hne⟩
        split
        · refine hap (hap ?_ ?_) ?_ <;> split <;> first | exact hb _ _ | exact hn
        · split
          · exact hb _ _
          · exact hap (hb _ _) (hb _ _)
          · exact hn
  | round l r ex =>
    unfold FloatOps.oAddJoin
    dsimp only
    unfold FloatOps.oRoundJoin
    dsimp only
    split
    · exact hw
    · rename_i hne
      split
      · exact hw
      · refine Or.inr ⟨hd _ (hap (allDrawn_arc (fun a b => ⟨a, b, rfl⟩) _ _) ?_), hne⟩
        split
        · exact hb _ _
        · exact hn

theorem marked_loop (radius : T) (j : Join T) (z : OSection P) : ∀ (l : List P) (s0 : OSection P) (ip0 : Pt),
    Marked o j z (o.oSections radius s0 ip0 l)
      (o.oAddSection s0 ++ (o.oLoop radius j s0 ip0 l).1 ++ o.oAddJoin j (o.oLoop radius j s0 ip0 l).2 z) := by
  intro l
  induction l with
  | nil =>
    intro s0 ip0
    rw [FloatOps.oLoop, List.append_nil]
    exact .one s0 _ (bold_marks _ _).1 (bold_marks _ _).2 (marks_addJoin o j s0 z)
  | cons p rest ih =>
    intro s0 ip0
    rw [FloatOps.oSections, FloatOps.oLoop]
    split
    · exact ih s0 ip0
    · dsimp only
      have h1 := ih (o.oSection radius s0.b p) (o.toInt p)
      obtain ⟨t, ht⟩ := oSections_head o radius (o.oSection radius s0.b p) (o.toInt p) rest
      rw [ht] at h1 ⊢
      have := Marked.cons s0 _ (boldAB (o.toInt s0.aTop) (o.toInt s0.bTop)) (bold_marks _ _).1 (bold_marks _ _).2
        (marks_addJoin o j s0 (o.oSection radius s0.b p)) h1
      simpa only [FloatOps.oAddSection, List.append_assoc, List.cons_append, List.nil_append] using this

/-- C51 (marks of outlines): of the registered edges exactly the shifted sections and the added edges of miter and
round joins are marked as sides, the chords at the other corners are not. -/
theorem C51_outline_marks (radius : T) (j : Join T) (path : List P) :
    (o.oClosedSections radius path = [] ∧ o.outlineSegments radius j path = []) ∨
    ∃ first, (o.oClosedSections radius path).head? = some first ∧
      Marked o j first (o.oClosedSections radius path) (o.outlineSegments radius j path) := by
  unfold FloatOps.outlineSegments
  split
  · exact Or.inl ⟨rfl, rfl⟩
  · left
    refine ⟨?_, rfl⟩
    simp [FloatOps.oClosedSections, FloatOps.dedupFrom, FloatOps.oSectionsFrom]
  · rename_i p0 p1 rest0
    dsimp only
    have hlast : (p0 :: p1 :: rest0).getLast? = some ((p1 :: rest0).getLast (by simp)) := by
      rw [List.getLast?_cons_cons, List.getLast?_eq_getLast_of_ne_nil (by simp)]
    unfold FloatOps.oClosedSections
    rw [hlast]
    dsimp only
    rw [dedupFrom_skip]
    split
    · rename_i e
      rw [e]; exact Or.inl ⟨rfl, rfl⟩
    · rename_i p rest e
      right
      rw [e]
      have es : ∀ l : P, o.oSectionsFrom radius l (p :: o.dedupFrom (o.toInt p) rest) =
          o.oSections radius (o.oSection radius l p) (o.toInt p) rest := by intro l; rw [oSections_eq]; rfl
      dsimp only
      rw [es]
      generalize hs : o.oSection radius ((p1 :: rest0).getLast (by simp)) p = s0
      refine ⟨s0, ?_, marked_loop o radius j s0 rest s0 (o.toInt p)⟩
      obtain ⟨t, ht⟩ := oSections_head o radius s0 (o.toInt p) rest
      rw [ht]; rfl

end

/-! ### the contours of an offset path -/

/-- An edge of a contour, in either direction, that is one of the noded edges that are part of a drawn side (bold),
not only of the chords that cut inner corners off. -/
def OnSide (r : List (Seg CountOff)) (e : Pt × Pt) : Prop :=
  ∃ s ∈ r, s.c.bold = true ∧ (e = (s.a, s.b) ∨ e = (s.b, s.a))

/-- The contours kept: at least one edge on a drawn side, and large enough after cleaning. -/
def KeptOff (clean : List Pt → List Pt × Bool) (r : List (Seg CountOff)) (minArea : Nat) (c : List Pt) : Prop :=
  (∃ e ∈ polyEdges c, OnSide r e) ∧ LargeEnough minArea (clean c).1

theorem boldContour_iff {r : List (Seg CountOff)} {g : Graph}
    (h : g.links.map (fun l => (l.a, l.b, l.fill)) = r.map (fun s => (s.a, s.b, fillOfOff r s))) (c : List Pt) :
    boldContour g c = true ↔ ∃ e ∈ polyEdges c, OnSide r e := by
  have hbold : ∀ s : Seg CountOff, ∀ l : Link, l.fill = fillOfOff r s → l.isBold = s.c.bold := by
    intro s l e
    unfold Link.isBold
    rw [e]
    unfold fillOfOff
    generalize decide (botW CountOff.subj r s + s.c.subj > 0) = a
    generalize decide (botW CountOff.subj r s > 0) = b
    generalize s.c.bold = c
    revert a b c; decide
  unfold boldContour OnSide
  simp only [List.any_eq_true, Bool.and_eq_true, Bool.or_eq_true, decide_eq_true_eq]
  constructor
  · rintro ⟨e, he, l, hl, hb, h1⟩
    have hm : (l.a, l.b, l.fill) ∈ g.links.map (fun l => (l.a, l.b, l.fill)) := List.mem_map.2 ⟨l, hl, rfl⟩
    rw [h] at hm
    obtain ⟨s, hs, e1⟩ := List.mem_map.1 hm
    simp only [Prod.mk.injEq] at e1
    refine ⟨e, he, s, hs, by rw [← hbold s l e1.2.2.symm]; exact hb, ?_⟩
    rw [e1.1, e1.2.1]
    exact h1
  · rintro ⟨e, he, s, hs, hb, h1⟩
    have hm : (s.a, s.b, fillOfOff r s) ∈ r.map (fun s => (s.a, s.b, fillOfOff r s)) := List.mem_map.2 ⟨s, hs, rfl⟩
    rw [← h] at hm
    obtain ⟨l, hl, e1⟩ := List.mem_map.1 hm
    simp only [Prod.mk.injEq] at e1
    refine ⟨e, he, l, hl, by rw [hbold s l e1.2.2]; exact hb, ?_⟩
    rw [e1.1, e1.2.1]
    exact h1

/-- The region (positive winding number) lies on one side only of the edge. -/
def RegionEdge (r : List (Seg CountOff)) (e : Seg CountOff) : Prop :=
  ∃ m, inSeg m e.a e.b ∧ ∃ ε : ℚ, 0 < ε ∧ ∀ δ, 0 < δ → δ < ε →
    ¬ (0 < segsWind CountOff.subj r (leftOf e.a e.b m δ) ↔ 0 < segsWind CountOff.subj r (rightOf e.a e.b m δ))

theorem regionEdge_iff {r : List (Seg CountOff)} (hp : Planar r) (hok : OffOk r) {e : Seg CountOff} (he : e ∈ r) :
    RegionEdge r e ↔ offBoundary r e = true := by
  constructor
  · rintro ⟨m, hm, ε, h1, h2⟩
    obtain ⟨ε', h3, h4⟩ := offBoundary_spec hp hok he hm
    have h0 : 0 < min ε ε' := lt_min h1 h3
    have hlt : min ε ε' / 2 < min ε ε' := half_lt_self h0
    exact (h4 _ (half_pos h0) (hlt.trans_le (min_le_right _ _))).2 (h2 _ (half_pos h0) (hlt.trans_le (min_le_left _ _)))
  · intro h
    obtain ⟨m, hm⟩ : ∃ m, inSeg m e.a e.b :=
      ⟨⟨e.a.x + (1/2) * (e.b.x - e.a.x), e.a.y + (1/2) * (e.b.y - e.a.y)⟩, 1/2, by norm_num, by norm_num, rfl, rfl⟩
    obtain ⟨ε, h1, h2⟩ := offBoundary_spec hp hok he hm
    exact ⟨m, hm, ε, h1, fun δ d0 d1 => (h2 δ d0 d1).1 h⟩

open Classical in
/-- The contours of the region of noded offset edges (positive winding number): their edges are the boundary edges,
each once; together they wind once around every point of the region, in the requested direction, and not at all around
others; outer contours and holes wind at most once, in opposite directions; contours are nested or disjoint. -/
structure OffsetContours (cw : Bool) (r : List (Seg CountOff)) (outer holes : List (List Pt)) : Prop where
  edges : (((outer ++ holes).flatMap polyEdges).map leftToRight).Perm
    ((r.filter fun e => decide (RegionEdge r e)).map fun e => (e.a, e.b))
  wind : ∀ q, polysWind (outer ++ holes) q = outerTurn cw * if 0 < segsWind CountOff.subj r q then 1 else 0
  outerOnce : ∀ c ∈ outer, WindsOnce (outerTurn cw) c
  holesOnce : ∀ c ∈ holes, WindsOnce (- outerTurn cw) c
  nested : (outer ++ holes).Pairwise Nested

open Classical in
/-- The contours of the region of an offset path, and those of them that are returned. -/
theorem offset_contours {k : OffConfig} {x : Externals} (ha : OffAssumed k x) {cw : Bool} {minArea : Nat}
    {segs : List (Seg CountOff)} (ht : AllTraced segs) (hb : Balanced CountOff.subj segs) (hz : ∀ e ∈ segs, e.a ≠ e.b)
    (hf : FragOk k.st k.sr segs) {r : List (Seg CountOff)} (hr : nodedEdges k.st k.sr k.tree k.fuel segs = some r)
    (h2 : AtMostTwoRight ((r.filter fun e => decide (RegionEdge r e)).map fun e => (e.a, e.b)))
    {shapes : List (List (List Pt))} (h : offsetShapes k x cw minArea segs = some shapes) :
    ∃ outer holes : List (List Pt), OffsetContours cw r outer holes ∧
      outerContours shapes = (outer.filter fun c => decide (KeptOff x.clean r minArea c)).map (fun c => (x.clean c).1) ∧
      (shapes = [] ∨ (holeContours shapes).Perm
        ((holes.filter fun c => decide (KeptOff x.clean r minArea c)).map fun c => (x.clean c).1)) ∧
      ∀ sh ∈ shapes, sh ≠ [] := by
  have hl : ∀ s ∈ segs, s.a < s.b := fun s hs => (ht s hs).lt (hz s hs)
  have hok : OffOk segs := ⟨(closed_iff_balanced _ _).2 hb, fun s hs => (ht s hs).nonempty⟩
  obtain ⟨r', g, V, h1, hp, hro, h4, h5, h6, h7, h8⟩ := offset_run ha.tree ha.scan ha.sortE hl hok hf h
  rw [hr] at h1
  obtain rfl := Option.some.inj h1
  have hB : (r.filter fun e => decide (RegionEdge r e)) = r.filter (offBoundary r) :=
    List.filter_congr fun e he => by rw [Bool.eq_iff_iff, decide_eq_true_iff]; exact regionEdge_iff hp hro he
  have hlk := offBoundary_links h4
  have htwo : TwoRight g.masked (g.masked.links.map fun l => maskFilter .subject l.fill) := by
    refine twoRight_links fun p => ?_
    have := h2 p
    rw [hB, ← hlk, List.filter_map, List.length_map] at this
    exact this
  obtain ⟨outer, holes, c1, c2, c3, c4, c5, c6⟩ := h5.contours rfl cw htwo
  refine ⟨outer, holes, ⟨by rw [hB, ← hlk]; exact c1, fun q => ?_, c3, c4, c5⟩, ?_⟩
  · rw [c2, ← segsWind_toBool]
    simp [ruleAt, OverlayRule.op, FillRule.inside]
  · have hx := h8 _ (boldOnly_boldClean h6 h7 x.clean)
    obtain ⟨k1, k2, k3⟩ := c6 _ _ _ hx
    have hfil : ∀ l : List (List Pt),
        ((l.filter fun c => decide (LargeEnough minArea (boldClean g x.clean c).1)).map fun c => (boldClean g x.clean c).1) =
        (l.filter fun c => decide (KeptOff x.clean r minArea c)).map fun c => (x.clean c).1 := by
      intro l
      have hkv : ∀ c, LargeEnough minArea (boldClean g x.clean c).1 ↔ KeptOff x.clean r minArea c := by
        intro c
        unfold KeptOff
        rw [← boldContour_iff h4]
        unfold boldClean
        cases boldContour g c
        · simp [LargeEnough]
        · simp
      have hf' : (l.filter fun c => decide (LargeEnough minArea (boldClean g x.clean c).1)) =
          l.filter fun c => decide (KeptOff x.clean r minArea c) := List.filter_congr fun c _ => by
        rw [Bool.eq_iff_iff, decide_eq_true_iff, decide_eq_true_iff]; exact hkv c
      rw [hf']
      refine List.map_congr_left fun c hc => ?_
      rw [List.mem_filter, decide_eq_true_iff] at hc
      have := (boldContour_iff h4 c).2 hc.2.1
      simp [boldClean, this]
    exact ⟨by rw [k1]; exact hfil outer, by rw [← hfil holes]; exact k2, k3⟩

open Classical in
/-- The noded edges of an outlined path at which its region ends. -/
noncomputable def regionEdges (r : List (Seg CountOff)) : List (Pt × Pt) :=
  (r.filter fun e => decide (RegionEdge r e)).map fun e => (e.a, e.b)

section
variable (o : FloatOps T P)

open Classical in
/-- C52 (a single path): if the path is counterclockwise (negative area), its registered edges are not degenerate and
no point is the left end of more than two edges of the region's boundary, the outline consists of exactly those contours
of the region where the shifted contour winds positively (after noding) that have an edge on a drawn side and are
large enough (after cleaning): the outer ones in order, and the holes, if any outer contour is left. -/
theorem C52_outline_path (k : OffConfig) (kb : Config) (x : Externals) (ha : OffAssumed k x) (area : List P → Int)
    (s : OutlineParams T) (cw : Bool) (minArea : Nat) (path : List P) (hA : area path < -1)
    (hz : ∀ e ∈ o.outlineSegments s.outerRadius s.outerJoin path, e.a ≠ e.b)
    (hf : FragOk k.st k.sr (o.outlineSegments s.outerRadius s.outerJoin path)) (r : List (Seg CountOff))
    (hr : nodedEdges k.st k.sr k.tree k.fuel (o.outlineSegments s.outerRadius s.outerJoin path) = some r)
    (h2 : AtMostTwoRight (regionEdges r)) (shapes : List (List (List Pt)))
    (h : o.outline k kb x area s cw minArea [path] = some shapes) :
    ∃ outer holes : List (List Pt), OffsetContours cw r outer holes ∧
      outerContours shapes =
        (outer.filter fun c => decide (KeptOff x.clean r (max minArea 1) c)).map (fun c => (x.clean c).1) ∧
      (shapes = [] ∨ (holeContours shapes).Perm
        ((holes.filter fun c => decide (KeptOff x.clean r (max minArea 1) c)).map fun c => (x.clean c).1)) ∧
      ∀ sh ∈ shapes, sh ≠ [] := by
  unfold FloatOps.outline at h
  simp only at h
  rw [if_neg (by omega)] at h
  exact offset_contours ha (allTraced_outline o _ _ _) (C48_outline o _ _ _) hz hf hr h2 h

/-- C52 (a single path that is clockwise or degenerate): nothing is returned. -/
theorem C52_outline_clockwise (k : OffConfig) (kb : Config) (x : Externals) (area : List P → Int)
    (s : OutlineParams T) (cw : Bool) (minArea : Nat) (path : List P) (hA : -1 ≤ area path) :
    o.outline k kb x area s cw minArea [path] = some [] := by
  unfold FloatOps.outline
  simp only
  rw [if_pos hA]

/-- The winding number around the contours of shapes. -/
theorem polysWind_map_clean {clean : List Pt → List Pt × Bool} (hc : CleanOk clean) (l : List (List Pt)) (q : QPt) :
    polysWind (l.map fun c => (clean c).1) q = polysWind l q := by
  unfold polysWind
  rw [List.map_map]
  congr 1
  exact List.map_congr_left fun c _ => hc c q

theorem three_of_windsOnce {d : Int} (hd : d ≠ 0) {c : List Pt} (h : WindsOnce d c) : 3 ≤ c.length := by
  by_contra hl
  obtain ⟨q, hq⟩ := h.2
  rw [polyWind_short (by omega)] at hq
  exact hd hq.symm

theorem outerTurn_ne (cw : Bool) : outerTurn cw ≠ 0 := by cases cw <;> decide

/-- If all contours of a region are returned, up to cleaning, the result winds as they do. -/
theorem kept_wind {clean : List Pt → List Pt × Bool} (hc : CleanOk clean) {cw : Bool} {outer holes : List (List Pt)}
    {shapes : List (List (List Pt))} (hholes : ∀ c ∈ holes, WindsOnce (- outerTurn cw) c)
    (hw : ∀ q, ∃ n : Nat, polysWind (outer ++ holes) q = outerTurn cw * n)
    (h3 : outerContours shapes = outer.map fun c => (clean c).1)
    (h4 : shapes = [] ∨ (holeContours shapes).Perm (holes.map fun c => (clean c).1)) (q : QPt) :
    polysWind shapes.flatten q = polysWind (outer ++ holes) q := by
  rw [← polysWind_map_clean hc (outer ++ holes)]
  rcases h4 with rfl | h4
  · have hout : outer = [] := by
      simpa [outerContours] using h3.symm
    have hhol : holes = [] := by
      rcases holes with _ | ⟨c, l⟩
      · rfl
      · exfalso
        obtain ⟨q', hq'⟩ := (hholes c (by simp)).2
        obtain ⟨m, hw⟩ := hw q'
        rw [hout, List.nil_append] at hw
        -- holes alone wind the other way
        have hneg : ∀ l : List (List Pt), (∀ c ∈ l, WindsOnce (- outerTurn cw) c) →
            ∃ n : Nat, polysWind l q' = - outerTurn cw * n := by
          intro l
          induction l with
          | nil => intro _; exact ⟨0, by simp [polysWind]⟩
          | cons c l ih =>
            intro h
            obtain ⟨n, hn⟩ := ih fun c hc => h c (by simp [hc])
            rcases (h c (by simp)).1 q' with hc | hc
            · refine ⟨n, ?_⟩
              unfold polysWind at hn ⊢
              rw [List.map_cons, List.sum_cons, hn, hc, zero_add]
            · refine ⟨n + 1, ?_⟩
              unfold polysWind at hn ⊢
              rw [List.map_cons, List.sum_cons, hn, hc]
              push_cast; ring
        obtain ⟨n, hn⟩ := hneg l fun c hc => hholes c (by simp [hc])
        unfold polysWind at hn hw
        rw [List.map_cons, List.sum_cons, hq', hn] at hw
        unfold outerTurn at hw
        cases cw <;> simp at hw <;> omega
    rw [hout, hhol]; rfl
  · rw [polysWind_perm (take_drop_perm shapes), h3, List.map_append]
    unfold polysWind
    rw [List.map_append, List.map_append, List.sum_append, List.sum_append, (h4.map _).sum_eq]

open Classical in
/-- The region of an offset path whose contours all have an edge on a drawn side. -/
theorem offset_region {k : OffConfig} {x : Externals} (ha : OffAssumed k x) {cw : Bool}
    {segs : List (Seg CountOff)} (ht : AllTraced segs) (hb : Balanced CountOff.subj segs) (hz : ∀ e ∈ segs, e.a ≠ e.b)
    (hf : FragOk k.st k.sr segs) {r : List (Seg CountOff)} (hr : nodedEdges k.st k.sr k.tree k.fuel segs = some r)
    (h2 : AtMostTwoRight (regionEdges r)) {shapes : List (List (List Pt))} (h : offsetShapes k x cw 0 segs = some shapes) :
    ∃ outer holes : List (List Pt), OffsetContours cw r outer holes ∧
      outerContours shapes = (outer.filter fun c => decide (∃ e ∈ polyEdges c, OnSide r e)).map (fun c => (x.clean c).1) ∧
      (shapes = [] ∨ (holeContours shapes).Perm
        ((holes.filter fun c => decide (∃ e ∈ polyEdges c, OnSide r e)).map fun c => (x.clean c).1)) ∧
      ((∀ c ∈ outer ++ holes, ∃ e ∈ polyEdges c, OnSide r e) →
        ∀ q, polysWind shapes.flatten q = outerTurn cw * if 0 < segsWind CountOff.subj r q then 1 else 0) := by
  obtain ⟨outer, holes, h1, h3, h4, h5⟩ := offset_contours ha ht hb hz hf hr h2 h
  have hlen : ∀ c ∈ outer ++ holes, 3 ≤ (x.clean c).1.length := by
    intro c hc
    rcases List.mem_append.1 hc with hc | hc
    · refine three_of_windsOnce (d := outerTurn cw) (outerTurn_ne cw) ?_
      have := h1.outerOnce c hc
      unfold WindsOnce at this ⊢
      simpa [ha.clean c] using this
    · refine three_of_windsOnce (d := - outerTurn cw) (by have := outerTurn_ne cw; omega) ?_
      have := h1.holesOnce c hc
      unfold WindsOnce at this ⊢
      simpa [ha.clean c] using this
  have hkept : ∀ c ∈ outer ++ holes, KeptOff x.clean r 0 c ↔ ∃ e ∈ polyEdges c, OnSide r e := by
    intro c hc
    unfold KeptOff LargeEnough
    exact ⟨fun h => h.1, fun h => ⟨h, hlen c hc, Nat.zero_le _⟩⟩
  have ho : (outer.filter fun c => decide (KeptOff x.clean r 0 c)) =
      outer.filter fun c => decide (∃ e ∈ polyEdges c, OnSide r e) :=
    List.filter_congr fun c hc => by
      rw [Bool.eq_iff_iff, decide_eq_true_iff, decide_eq_true_iff]; exact hkept c (by simp [hc])
  have hh : (holes.filter fun c => decide (KeptOff x.clean r 0 c)) =
      holes.filter fun c => decide (∃ e ∈ polyEdges c, OnSide r e) :=
    List.filter_congr fun c hc => by
      rw [Bool.eq_iff_iff, decide_eq_true_iff, decide_eq_true_iff]; exact hkept c (by simp [hc])
  rw [ho] at h3
  rw [hh] at h4
  refine ⟨outer, holes, h1, h3, h4, fun hall q => ?_⟩
  rw [List.filter_eq_self.2 fun c hc => decide_eq_true (hall c (by simp [hc]))] at h3
  rw [List.filter_eq_self.2 fun c hc => decide_eq_true (hall c (by simp [hc]))] at h4
  rw [kept_wind ha.clean h1.holesOnce (fun q => ?_) h3 h4 q, h1.wind q]
  rw [h1.wind q]
  split
  · exact ⟨1, by simp⟩
  · exact ⟨0, by simp⟩

end

end IOverlay
