/-
Property C44: results stay within the bounding box of the input.
-/
import Verif.Box
import Verif.FragLoop
import Verif.Props.Extract
import Verif.Props.Strings
import Verif.Props.FragmentRefuted

namespace IOverlay
open WindingCount
variable {C : Type}

/-! ### the registered edges -/

theorem withAB_ends {P : Pt → Prop} {u v : Pt} (hu : P u) (hv : P v) (d i : C) :
    P (withAB u v d i).a ∧ P (withAB u v d i).b := by
  unfold withAB
  split
  · exact ⟨hu, hv⟩
  · exact ⟨hv, hu⟩

theorem skipLine_ends {P : Pt → Prop} : ∀ (rest : List Pt) (p0 p1 : Pt), P p0 → P p1 → (∀ p ∈ rest, P p) →
    P (skipLine p0 p1 rest).1 ∧ P (skipLine p0 p1 rest).2.1 ∧ ∀ p ∈ (skipLine p0 p1 rest).2.2, P p := by
  intro rest
  induction rest with
  | nil => intro p0 p1 h0 h1 h; exact ⟨h0, h1, by simp [skipLine]⟩
  | cons p rest ih =>
    intro p0 p1 h0 h1 h
    unfold skipLine
    split
    · exact ⟨h1, h p (by simp), fun q hq => h q (List.mem_cons_of_mem _ hq)⟩
    · exact ih p0 p h0 (h p (by simp)) fun q hq => h q (List.mem_cons_of_mem _ hq)

theorem mainLoop_ends {P : Pt → Prop} (d i : C) : ∀ (rest : List Pt) (p0 p1 : Pt), P p0 → P p1 → (∀ p ∈ rest, P p) →
    (∀ s ∈ (mainLoop d i p0 p1 rest).1, P s.a ∧ P s.b) ∧ P (mainLoop d i p0 p1 rest).2.1 ∧
      P (mainLoop d i p0 p1 rest).2.2 := by
  intro rest
  induction rest with
  | nil => intro p0 p1 h0 h1 _; exact ⟨by simp [mainLoop], h0, h1⟩
  | cons p rest ih =>
    intro p0 p1 h0 h1 h
    unfold mainLoop
    split
    · exact ih p0 p h0 (h p (by simp)) fun q hq => h q (List.mem_cons_of_mem _ hq)
    · obtain ⟨a, b, c⟩ := ih p1 p h1 (h p (by simp)) fun q hq => h q (List.mem_cons_of_mem _ hq)
      refine ⟨?_, b, c⟩
      intro s hs
      rcases List.mem_cons.1 hs with rfl | hs
      · exact withAB_ends h0 h1 _ _
      · exact a s hs

theorem closePath_ends {P : Pt → Prop} (d i : C) {q0 q1 p0 p1 : Pt} (a : P q0) (b : P q1) (c : P p0) (e : P p1) :
    ∀ s ∈ closePath d i q0 q1 p0 p1, P s.a ∧ P s.b := by
  intro s hs
  unfold closePath at hs
  split at hs
  · simp only [List.mem_cons, List.not_mem_nil, or_false] at hs
    rcases hs with rfl | rfl | rfl
    · exact withAB_ends c e _ _
    · exact withAB_ends e a _ _
    · exact withAB_ends a b _ _
  · split at hs
    · simp only [List.mem_cons, List.not_mem_nil, or_false] at hs
      subst hs; exact withAB_ends c b _ _
    · simp at hs
  · rcases List.mem_append.1 hs with hs | hs
    · split at hs
      · simp only [List.mem_cons, List.not_mem_nil, or_false] at hs
        subst hs; exact withAB_ends c a _ _
      · simp at hs
    · simp only [List.mem_cons, List.not_mem_nil, or_false] at hs
      subst hs; exact withAB_ends a b _ _
  · rcases List.mem_append.1 hs with hs | hs
    · simp only [List.mem_cons, List.not_mem_nil, or_false] at hs
      subst hs; exact withAB_ends c e _ _
    · split at hs
      · simp only [List.mem_cons, List.not_mem_nil, or_false] at hs
        subst hs; exact withAB_ends e b _ _
      · simp at hs

/-- The ends of the edges of a contour are vertices of it. -/
theorem appendPath_ends {P : Pt → Prop} (d i : C) (pts : List Pt) (h : ∀ p ∈ pts, P p) :
    ∀ s ∈ appendPath d i pts, P s.a ∧ P s.b := by
  rcases pts with _ | ⟨q0, _ | ⟨p1, rest⟩⟩
  · simp [appendPath]
  · simp [appendPath]
  · have h0 := h q0 (by simp)
    obtain ⟨a, b, c⟩ := skipLine_ends rest q0 p1 h0 (h p1 (by simp)) fun p hp => h p (by simp [hp])
    obtain ⟨a', b', c'⟩ := mainLoop_ends d i _ _ _ a b c
    intro s hs
    unfold appendPath at hs
    rcases List.mem_append.1 hs with hs | hs
    · exact a' s hs
    · exact closePath_ends d i h0 a b' c' s hs

theorem overlaySegments_ends [WindingCount C] {P : Pt → Prop} {subj clip : List (List Pt)}
    (h : ∀ c ∈ subj ++ clip, ∀ p ∈ c, P p) : ∀ s ∈ (overlaySegments subj clip : List (Seg C)), P s.a ∧ P s.b := by
  intro s hs
  simp only [overlaySegments, List.mem_append, List.mem_flatMap] at hs
  rcases hs with ⟨c, hc, hs⟩ | ⟨c, hc, hs⟩
  · exact appendPath_ends _ _ c (h c (List.mem_append_left _ hc)) s hs
  · exact appendPath_ends _ _ c (h c (List.mem_append_right _ hc)) s hs

theorem stringSegments_ends {P : Pt → Prop} {shape paths contours : List (List Pt)}
    (h : ∀ c ∈ shape ++ paths ++ contours, ∀ p ∈ c, P p) :
    ∀ s ∈ stringSegments shape paths contours, P s.a ∧ P s.b := by
  have loop : ∀ (l : List Pt) (a : Pt), P a → (∀ p ∈ l, P p) → ∀ s ∈ stringLoop a l, P s.a ∧ P s.b := by
    intro l
    induction l with
    | nil => intro a _ _ s hs; simp [stringLoop] at hs
    | cons b l ih =>
      intro a ha hl s hs
      unfold stringLoop at hs
      have hb := hl b (by simp)
      have hl' := fun q hq => hl q (List.mem_cons_of_mem _ hq)
      have one : ∀ s : Seg CountStr, s ∈ addStringLine a b → P s.a ∧ P s.b := by
        intro s hs
        unfold addStringLine at hs
        split at hs
        · simp only [List.mem_singleton] at hs; subst hs; exact ⟨ha, hb⟩
        · split at hs
          · simp only [List.mem_singleton] at hs; subst hs; exact ⟨hb, ha⟩
          · simp at hs
      rcases List.mem_append.1 hs with hs | hs
      · exact one s hs
      · exact ih b hb hl' s hs
  intro s hs
  simp only [stringSegments, List.mem_append, List.mem_flatMap] at hs h
  rcases hs with (⟨c, hc, hs⟩ | ⟨c, hc, hs⟩) | ⟨c, hc, hs⟩
  · exact appendPath_ends _ _ c (h c (Or.inl (Or.inl hc))) s hs
  · have hP := h c (Or.inl (Or.inr hc))
    unfold addStringPath at hs
    split at hs
    · simp at hs
    · split at hs
      · rename_i a ha
        exact loop _ a (hP a (List.mem_of_mem_head? ha)) (fun p hp => hP p (List.mem_of_mem_drop hp)) s hs
      · simp at hs
  · have hP := h c (Or.inr hc)
    unfold addStringContour at hs
    split at hs
    · simp at hs
    · split at hs
      · rename_i a ha
        exact loop _ a (hP a (List.mem_of_mem_getLast? ha)) hP s hs
      · simp at hs

/-! ### splitting -/

theorem start_ends [WindingCount C] {P : Pt → Prop} {segs : List (Seg C)} (h : ∀ s ∈ segs, P s.a ∧ P s.b) :
    ∀ s ∈ mergeIfNeeded (sortSegs segs), P s.a ∧ P s.b := by
  intro s hs
  obtain ⟨e, h1, h2, h3⟩ := mergeIfNeeded_edges _ s hs
  rw [(sortSegs_perm _).mem_iff] at h1
  rw [h2, h3]
  exact h e h1

/-- What the crossing tests of one round rely on, within a box inside the documented range. -/
structure InBox (B : Box) (segs : List (Seg C)) : Prop where
  sorted : segs.Pairwise Seg.lt
  lt : ∀ s ∈ segs, s.a < s.b
  range : ∀ s ∈ segs, InRange s.a ∧ InRange s.b
  boxed : Boxed B segs

/-- The largest box in range. -/
def rangeBox : Box := ⟨-2 ^ 30 + 1, 2 ^ 30 - 1, -2 ^ 30 + 1, 2 ^ 30 - 1⟩

theorem rangeBox_has (p : Pt) : rangeBox.Has p ↔ InRange p := by
  unfold rangeBox Box.Has InRange
  dsimp only
  omega

/-- One round over pairs containing all meeting edges (list, tree). -/
theorem InBox.round [WindingCount C] {B : Box} {segs : List (Seg C)} (h : InBox B segs) {pairs : List EPair}
    (hc : Covers pairs segs) {radius : Int} (hr : 0 ≤ radius) :
    InBox B (applyMarks (roundMarks radius pairs).1 segs) := by
  have box : ∀ B : Box, Boxed B segs → Boxed B (applyMarks (roundMarks radius pairs).1 segs) := fun B hB =>
    applyMarks_ends _ _ B.Has hB (roundMarks_box h.lt hc hr hB h.range)
  refine ⟨applyMarks_sorted _ _, applyMarks_lt h.lt hc hr, ?_, box B h.boxed⟩
  intro s hs
  have := box rangeBox (fun s hs => by
    obtain ⟨a, b⟩ := h.range s hs
    exact ⟨(rangeBox_has _).2 a, (rangeBox_has _).2 b⟩) s hs
  exact ⟨(rangeBox_has _).1 this.1, (rangeBox_has _).1 this.2⟩

theorem splitLoop_box [WindingCount C] (st : Strategy) (tree : TreeOracle C) (ht : tree.Ok) (B : Box) (n : Nat) (mode : Mode)
    (sr : SnapRadius) (segs r : List (Seg C)) (h : InBox B segs) (he : splitLoop st tree n mode sr segs = some r) :
    InBox B r := by
  induction n generalizing mode sr segs with
  | zero => simp [splitLoop] at he
  | succ n ih =>
    cases mode with
    | list =>
      have hn := h.round (listPairs_covers segs (sorted_of_strict h.sorted) h.lt) sr.radius_nonneg
      rw [splitLoop] at he
      dsimp only at he
      split at he
      · simp only [Option.some.injEq] at he; subst he; exact h
      · split at he
        · simp only [Option.some.injEq] at he; subst he; exact h
        · split at he
          · split at he
            · exact ih _ _ _ hn he
            · exact ih _ _ _ hn he
          · simp only [Option.some.injEq] at he; subst he; exact hn
    | tree =>
      rw [splitLoop] at he
      split at he
      · exact ih _ _ _ h he
      · exact ih _ _ _ h he
    | treeLoop =>
      have hn := h.round (ht segs h.sorted h.lt) sr.radius_nonneg
      rw [splitLoop] at he
      dsimp only at he
      split at he
      · simp only [Option.some.injEq] at he; subst he; exact h
      · split at he
        · simp only [Option.some.injEq] at he; subst he; exact h
        · split at he
          · exact ih _ _ _ hn he
          · simp only [Option.some.injEq] at he; subst he; exact hn

theorem splitSegments_box [WindingCount C] (st : Strategy) (sr : SnapRadius) (tree : TreeOracle C) (ht : tree.Ok) (B : Box)
    (fuel : Nat) (segs r : List (Seg C)) (hl : ∀ s ∈ segs, s.a < s.b)
    (hb : ∀ s ∈ segs, (B.Has s.a ∧ InRange s.a) ∧ B.Has s.b ∧ InRange s.b)
    (he : splitSegments st sr tree fuel segs = some r) : InBox B r := by
  have h0 : InBox B (mergeIfNeeded (sortSegs segs)) := by
    have := start_ends (P := fun p => B.Has p ∧ InRange p) hb
    exact ⟨start_sorted _, start_lt hl, fun s hs => ⟨(this s hs).1.2, (this s hs).2.2⟩,
      fun s hs => ⟨(this s hs).1.1, (this s hs).2.1⟩⟩
  unfold splitSegments at he
  dsimp only at he
  split at he
  · exact splitLoop_box st tree ht B _ _ _ _ _ h0 he
  · split at he
    · unfold fragSplit at he
      split at he
      · exact splitLoop_box st tree ht B _ _ _ _ _ h0 he
      · rename_i g hg
        obtain ⟨a, -, c⟩ := fragLoop_basic g (fun _ => True) (fun _ _ _ => trivial) fuel sr _ r
          ⟨h0.sorted, Grid.new_inGrid h0.sorted h0.lt hg, h0.range⟩ trivial he
        exact ⟨a.sorted, a.inGrid.lt, a.range, c B h0.boxed⟩
    · exact splitLoop_box st tree ht B _ _ _ _ _ h0 he

/-! ### C44 -/

/-- The point lies in the rectangle `[x0, x1] × [y0, y1]`. -/
def InRect (x0 x1 y0 y1 : Int) (p : Pt) : Prop := x0 ≤ p.x ∧ p.x ≤ x1 ∧ y0 ≤ p.y ∧ p.y ≤ y1

/-- C44 (edges): whatever the strategy, precision and number of rounds, all edges produced by splitting lie in any
rectangle containing the input, if the coordinates are in the documented range. -/
theorem C44_split (st : Strategy) (sr : SnapRadius) (tree : TreeOracle CountBool) (ht : tree.Ok) (fuel : Nat)
    (subj clip : List (List Pt)) (x0 x1 y0 y1 : Int)
    (hin : ∀ c ∈ subj ++ clip, ∀ p ∈ c, InRange p ∧ InRect x0 x1 y0 y1 p) (r : List (Seg CountBool))
    (he : nodedEdges st sr tree fuel (overlaySegments subj clip) = some r) :
    ∀ s ∈ r, (InRange s.a ∧ InRect x0 x1 y0 y1 s.a) ∧ InRange s.b ∧ InRect x0 x1 y0 y1 s.b := by
  unfold nodedEdges at he
  split at he
  · rw [← Option.some.inj he]; simp
  · have h := splitSegments_box st sr tree ht ⟨x0, x1, y0, y1⟩ fuel _ r (overlaySegments_lt subj clip)
      (overlaySegments_ends (P := fun p => (⟨x0, x1, y0, y1⟩ : Box).Has p ∧ InRange p)
        fun c hc p hp => ⟨(hin c hc p hp).2, (hin c hc p hp).1⟩) he
    intro s hs
    exact ⟨⟨(h.range s hs).1, (h.boxed s hs).1⟩, (h.range s hs).2, (h.boxed s hs).2⟩

/-- The vertices of the returned contours are ends of noded edges. -/
theorem RunOk.vertices {rule : FillRule} {r : OverlayRule} {segs : List (Seg CountBool)} {g : Graph} {V : List Pt}
    {vis : List Bool} (h : RunOk rule r segs g V vis) (cw : Bool) {x : Externals} {minArea : Nat}
    (hcl : ∀ c, ∀ p ∈ (x.clean c).1, p ∈ c)
    {shapes : List (List (List Pt))} (he : IOverlay.extract x g r cw minArea vis = some shapes) :
    ∀ s ∈ shapes, ∀ c ∈ s, ∀ p ∈ c, ∃ e ∈ segs, p = e.a ∨ p = e.b := by
  obtain ⟨ws, ⟨parents, h1⟩, h2, -, -, -⟩ := h.returned cw he
  obtain ⟨inc, F, e1, -, -⟩ := h.filter
  -- points of a walk
  have hw : ∀ w ∈ ws, ∀ p ∈ (x.clean w.raw).1, ∃ e ∈ segs, p = e.a ∨ p = e.b := by
    intro w hw p hp
    have hp' := hcl _ p hp
    rw [← polyEdges_fst w.raw] at hp'
    obtain ⟨d, hd, rfl⟩ := List.mem_map.1 hp'
    obtain ⟨hlen, hget⟩ := List.forall₂_iff_get.1 (h2 w hw).1
    obtain ⟨n, hn, rfl⟩ := List.mem_iff_getElem.1 hd
    obtain ⟨l, hl, hle⟩ := hget n (by omega) hn
    have hm : (l.a, l.b, l.fill) ∈ g.links.map (fun l => (l.a, l.b, l.fill)) :=
      List.mem_map_of_mem (f := fun l : Link => (l.a, l.b, l.fill)) (List.mem_of_getElem? hl)
    rw [e1] at hm
    obtain ⟨s, hs, hse⟩ := List.mem_map.1 hm
    simp only [Prod.mk.injEq] at hse
    refine ⟨s, (List.mem_filter.1 hs).1, ?_⟩
    rw [hse.1, hse.2.1]
    rcases hle with hle | hle
    · left; rw [List.get_eq_getElem] at hle; exact congrArg Prod.fst hle
    · right; rw [List.get_eq_getElem] at hle; exact congrArg Prod.fst hle
  intro s hs c hc p hp
  dsimp only at h1
  have key : ∃ w ∈ ws, c = (x.clean w.raw).1 := by
    rcases h1 with ⟨-, rfl⟩ | ⟨-, -, rfl⟩
    · simp at hs
    · obtain ⟨i, hi, rfl⟩ := List.mem_mapIdx.1 hs
      rcases List.mem_cons.1 hc with rfl | hc
      · have hm := List.getElem_mem hi
        obtain ⟨w, hw, e⟩ := List.mem_map.1 hm
        exact ⟨w, (List.mem_filter.1 hw).1, e.symm⟩
      · obtain ⟨y, hy, rfl⟩ := List.mem_map.1 hc
        have hm := (List.of_mem_zip (List.mem_filter.1 hy).1).1
        obtain ⟨w, hw, e⟩ := List.mem_map.1 hm
        exact ⟨w, (List.mem_filter.1 hw).1, e.symm⟩
  obtain ⟨w, hw1, rfl⟩ := key
  exact hw w hw1 p hp

/-- C44 (one-shot overlay): every vertex of the result lies in any rectangle containing the input. -/
theorem C44_overlay (k : Config) (x : Externals) (ha : Assumed k x) (hcl : ∀ c, ∀ p ∈ (x.clean c).1, p ∈ c)
    (r : OverlayRule) (rule : FillRule) (cw : Bool) (minArea : Nat) (subj clip : List (List Pt)) (hf : FragFor k subj clip)
    (x0 x1 y0 y1 : Int) (hin : ∀ c ∈ subj ++ clip, ∀ p ∈ c, InRange p ∧ InRect x0 x1 y0 y1 p)
    (shapes : List (List (List Pt)))
    (h : overlayCustom k x r rule cw minArea (overlaySegments subj clip) = some shapes) :
    ∀ s ∈ shapes, ∀ c ∈ s, ∀ p ∈ c, InRect x0 x1 y0 y1 p := by
  obtain ⟨segs, g, V, vis, h1, h2, h3⟩ := extract_oneShot ha hf h
  have hb := C44_split k.st k.sr k.tree ha.tree k.fuel subj clip x0 x1 y0 y1 hin segs h1
  intro s hs c hc p hp
  obtain ⟨e, he, he'⟩ := h2.vertices cw hcl h3 s hs c hc p hp
  rcases he' with rfl | rfl
  · exact (hb e he).1.2
  · exact (hb e he).2.2

/-- C44 (graph). -/
theorem C44_graph (k : Config) (x : Externals) (ha : Assumed k x) (hcl : ∀ c, ∀ p ∈ (x.clean c).1, p ∈ c)
    (r : OverlayRule) (rule : FillRule) (cw : Bool) (minArea : Nat) (subj clip : List (List Pt)) (hf : FragFor k subj clip)
    (x0 x1 y0 y1 : Int) (hin : ∀ c ∈ subj ++ clip, ∀ p ∈ c, InRange p ∧ InRect x0 x1 y0 y1 p)
    (g : Graph) (shapes : List (List (List Pt)))
    (hg : intoGraph k x rule (overlaySegments subj clip) = some g)
    (h : extractShapesCustom x g r cw minArea = some shapes) :
    ∀ s ∈ shapes, ∀ c ∈ s, ∀ p ∈ c, InRect x0 x1 y0 y1 p := by
  obtain ⟨segs, V, vis, h1, h2, h3⟩ := extract_graph ha hf hg h
  have hb := C44_split k.st k.sr k.tree ha.tree k.fuel subj clip x0 x1 y0 y1 hin segs h1
  intro s hs c hc p hp
  obtain ⟨e, he, he'⟩ := h2.vertices cw hcl h3 s hs c hc p hp
  rcases he' with rfl | rfl
  · exact (hb e he).1.2
  · exact (hb e he).2.2

/-- C44 (clipping lines): the returned polylines lie in any rectangle containing shape and lines. -/
theorem C44_clip (clip : ClipRule) (rule : FillRule) (st : Strategy) (sr : SnapRadius)
    (tree : TreeOracle CountStr) (ht : tree.Ok) (sc : ScanOracle CountStr) (hsc : sc.Ok) (fuel : Nat)
    (sortE : List End → List End) (hE : EndSort sortE) (shape paths contours : List (List Pt))
    (hf : FragOk st sr (stringSegments shape paths contours)) (x0 x1 y0 y1 : Int)
    (hin : ∀ c ∈ shape ++ paths ++ contours, ∀ p ∈ c, InRange p ∧ InRect x0 x1 y0 y1 p)
    (r : List (Seg CountStr))
    (hr : nodedEdges st sr tree fuel (stringSegments shape paths contours) = some r)
    (hn : st = .list ∨ 2 < r.length) :
    ∃ out, clipLines clip rule st sr tree sc fuel sortE (stringSegments shape paths contours) = some out ∧
      ∀ l ∈ out, ∀ p ∈ l, InRect x0 x1 y0 y1 p := by
  obtain ⟨out, K, h1, h2, h3, -⟩ := C29_clip clip rule st sr tree ht sc hsc fuel sortE hE shape paths contours hf r hr hn
  refine ⟨out, h1, ?_⟩
  have hb : ∀ s ∈ r, InRect x0 x1 y0 y1 s.a ∧ InRect x0 x1 y0 y1 s.b := by
    unfold nodedEdges at hr
    split at hr
    · rw [← Option.some.inj hr]; simp
    · have h := splitSegments_box st sr tree ht ⟨x0, x1, y0, y1⟩ fuel _ r (stringSegments_lt shape paths contours)
        (stringSegments_ends (P := fun p => (⟨x0, x1, y0, y1⟩ : Box).Has p ∧ InRange p)
          fun c hc p hp => ⟨(hin c hc p hp).2, (hin c hc p hp).1⟩) hr
      exact fun s hs => h.boxed s hs
  have piece : ∀ d ∈ out.flatMap (fun p => p.zip p.tail), InRect x0 x1 y0 y1 d.1 ∧ InRect x0 x1 y0 y1 d.2 := by
    intro d hd
    rw [h3.mem_iff] at hd
    obtain ⟨s, hs, hd⟩ := List.mem_flatMap.1 hd
    have := hb s (List.mem_filter.1 hs).1
    rcases (mem_pieces s d.1 d.2).1 hd with ⟨-, e1, e2⟩ | ⟨-, e1, e2⟩
    · rw [e1, e2]; exact this
    · rw [e1, e2]; exact this.symm
  intro l hl p hp
  have hlen := h2 l hl
  obtain ⟨i, hi, rfl⟩ := List.mem_iff_getElem.1 hp
  have ht : l.tail.length = l.length - 1 := List.length_tail
  by_cases hlast : i + 1 < l.length
  · have hz : i < (l.zip l.tail).length := by rw [List.length_zip]; omega
    have hm := List.getElem_mem hz
    have := (piece _ (List.mem_flatMap.2 ⟨l, hl, hm⟩)).1
    rwa [List.getElem_zip] at this
  · have hz : i - 1 < (l.zip l.tail).length := by rw [List.length_zip]; omega
    have hm := List.getElem_mem hz
    have := (piece _ (List.mem_flatMap.2 ⟨l, hl, hm⟩)).2
    rw [List.getElem_zip] at this
    simp only [List.getElem_tail] at this
    have e : i - 1 + 1 = i := by omega
    simpa only [e] using this

/-- The hypotheses are met; fragments are used, the result is not empty. -/
example : Assumed fragConfig exExternals ∧ (∀ c, ∀ p ∈ (exExternals.clean c).1, p ∈ c) ∧
    FragFor fragConfig exFragInput.1 exFragInput.2 ∧
    (∀ c ∈ exFragInput.1 ++ exFragInput.2, ∀ p ∈ c, InRange p ∧ InRect 0 25 0 30 p) ∧
    overlayCustom fragConfig exExternals .intersect .nonZero false 0 (overlaySegments exFragInput.1 exFragInput.2) =
      some [[[⟨9, 10⟩, ⟨9, 0⟩, ⟨20, 0⟩, ⟨20, 10⟩]]] := by
  refine ⟨⟨bruteTree_ok, listScanOracle_ok, insertionEndSort_ok, cleanSecond_ok⟩, ?_, exFragOk, ?_, by decide +kernel⟩
  · intro c p hp
    change p ∈ (cleanSecond c).1 at hp
    unfold cleanSecond at hp
    split at hp
    · split at hp
      · simp only [List.mem_cons] at hp ⊢; tauto
      · exact hp
    · exact hp
  · unfold InRange InRect; decide +kernel

end IOverlay
