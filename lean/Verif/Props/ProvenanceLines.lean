/-
C82 for slicing and clipping: every vertex of the pieces or of the clipped lines was given, or two given edges or lines cross
in it.
-/
import Verif.Props.Provenance
import Verif.Props.ApartLines
import Verif.Props.SliceCuts

namespace IOverlay

/-- A vertex of the shape, the paths or the closed lines, or a point in which two of their edges cross. -/
def GivenOrCrossingLines (shape paths contours : List (List Pt)) (p : Pt) : Prop :=
  (∃ c ∈ shape ++ paths ++ contours, p ∈ c) ∨ CrossingOf (shape.flatMap polyEdges ++ userLines paths contours) p

theorem stringSegments_course {shape paths contours : List (List Pt)} (hs : ∀ c ∈ shape, NotClosedExplicitly c) :
    ∀ s ∈ stringSegments shape paths contours, Course (shape.flatMap polyEdges ++ userLines paths contours) s.a s.b := by
  have up : ∀ {E E' : List (Pt × Pt)} {a b : Pt}, (∀ e ∈ E, e ∈ E') → Course E a b → Course E' a b := by
    intro E E' a b hE h q hq
    rcases h q hq with ⟨e, h1, h2⟩ | ⟨e, h1, h2⟩
    · exact Or.inl ⟨e, hE e h1, h2⟩
    · exact Or.inr ⟨e, hE e h1, h2⟩
  intro s hm
  by_cases hc : s ∈ shape.flatMap (appendContour .subject)
  · obtain ⟨c, hcm, hcs⟩ := List.mem_flatMap.1 hc
    refine up ?_ (appendPath_course _ _ c (hs c hcm) s hcs)
    intro e he
    exact List.mem_append_left _ (List.mem_flatMap.2 ⟨c, hcm, he⟩)
  · have hb : s.c.back = !s.c.fwd := by
      unfold stringSegments at hm
      rcases List.mem_append.1 hm with hm | hm
      · rcases List.mem_append.1 hm with hm | hm
        · exact absurd hm hc
        · obtain ⟨c, -, h⟩ := List.mem_flatMap.1 hm
          exact ((C27_string_path c).2 s h).2.2
      · obtain ⟨c, -, h⟩ := List.mem_flatMap.1 hm
        exact ((C27_string_contour c).2 s h).2.2
    rcases hf : s.c.fwd with _ | _
    · have : (s.a, s.b) ∈ s.pieces := (mem_pieces _ _ _).2 (Or.inl ⟨by rw [hb, hf]; rfl, rfl, rfl⟩)
      have := (stringSegments_pieces shape paths contours _).1 ⟨s, hm, this⟩
      exact Course.edge (List.mem_append_right _ this.1)
    · have : (s.b, s.a) ∈ s.pieces := (mem_pieces _ _ _).2 (Or.inr ⟨hf, rfl, rfl⟩)
      have := (stringSegments_pieces shape paths contours _).1 ⟨s, hm, this⟩
      exact (Course.edge (List.mem_append_right _ this.1)).symm

/-- Ends of the given edges and lines are given vertices. -/
theorem lines_mem {shape paths contours : List (List Pt)} {e : Pt × Pt}
    (h : e ∈ shape.flatMap polyEdges ++ userLines paths contours) :
    (∃ c ∈ shape ++ paths ++ contours, e.1 ∈ c) ∧ ∃ c ∈ shape ++ paths ++ contours, e.2 ∈ c := by
  have poly : ∀ {cs : List (List Pt)}, (∀ c ∈ cs, c ∈ shape ++ paths ++ contours) → e ∈ cs.flatMap polyEdges →
      (∃ c ∈ shape ++ paths ++ contours, e.1 ∈ c) ∧ ∃ c ∈ shape ++ paths ++ contours, e.2 ∈ c := by
    intro cs hcs h
    obtain ⟨c, hc, he⟩ := List.mem_flatMap.1 h
    obtain ⟨m1, m2⟩ := polyEdges_mem he
    exact ⟨⟨c, hcs c hc, m1⟩, c, hcs c hc, m2⟩
  unfold userLines at h
  rcases List.mem_append.1 h with h | h
  · exact poly (fun c hc => by simp [hc]) h
  rcases List.mem_append.1 h with h | h
  · obtain ⟨c, hc, he⟩ := List.mem_flatMap.1 h
    have hc' : c ∈ shape ++ paths ++ contours := by simp [hc]
    exact ⟨⟨c, hc', (List.of_mem_zip he).1⟩, c, hc', List.mem_of_mem_tail (List.of_mem_zip he).2⟩
  · exact poly (fun c hc => by simp [hc]) h

/-- An edge starts at every vertex. -/
theorem polyEdges_start {c : List Pt} {p : Pt} (h : p ∈ c) : ∃ q, (p, q) ∈ polyEdges c := by
  rcases c with _ | ⟨a, ps⟩
  · simp at h
  obtain ⟨i, hi, e⟩ := List.mem_iff_getElem.1 h
  have hl : i < ((a :: ps).zip (ps ++ [a])).length := by simp at hi ⊢; omega
  refine ⟨(ps ++ [a])[i]'(by simp at hi ⊢; omega), ?_⟩
  have := List.getElem_mem hl
  rw [List.getElem_zip, e] at this
  exact this

section
variable {st : Strategy} {sr : SnapRadius} {tree : TreeOracle CountStr} (ht : tree.Ok) {fuel : Nat}
  {shape paths contours : List (List Pt)} (hf : FragOk st sr (stringSegments shape paths contours))
  (hns : ∀ c ∈ shape, NotClosedExplicitly c) (hin : ∀ c ∈ shape ++ paths ++ contours, ∀ p ∈ c, InRange p)
  (hw : WholeCrossings (shape.flatMap polyEdges ++ userLines paths contours))
include ht hf hns hin hw

/-- Ends of noded edges. -/
theorem noded_origin_lines {r : List (Seg CountStr)}
    (hr : nodedEdges st sr tree fuel (stringSegments shape paths contours) = some r) (hn : st = .list ∨ 2 < r.length) :
    ∀ s ∈ r, GivenOrCrossingLines shape paths contours s.a ∧ GivenOrCrossingLines shape paths contours s.b := by
  have hx := string_not_round hns hin hw sr.radius
  obtain ⟨n, hn⟩ := noded_list_lines ht hf hr hn
  clear hr
  have h0 : ∀ s ∈ mergeIfNeeded (sortSegs (stringSegments shape paths contours)),
      GivenOrCrossingLines shape paths contours s.a ∧ GivenOrCrossingLines shape paths contours s.b :=
    start_ends (P := GivenOrCrossingLines shape paths contours)
      (stringSegments_ends (P := GivenOrCrossingLines shape paths contours) fun c hc p hp => Or.inl ⟨c, hc, hp⟩)
  have hl := start_lt (stringSegments_lt shape paths contours)
  have hcov := listPairs_covers _ (sorted_of_strict (start_sorted (stringSegments shape paths contours))) hl
  have hcourse : ∀ s ∈ mergeIfNeeded (sortSegs (stringSegments shape paths contours)),
      Course (shape.flatMap polyEdges ++ userLines paths contours) s.a s.b := by
    intro s hs
    obtain ⟨e, h1, h2, h3⟩ := mergeIfNeeded_edges _ s hs
    rw [(sortSegs_perm _).mem_iff] at h1
    rw [h2, h3]
    exact stringSegments_course hns e h1
  generalize mergeIfNeeded (sortSegs (stringSegments shape paths contours)) = l at *
  cases n with
  | zero => simp [splitLoop] at hn
  | succ n =>
    rw [splitLoop] at hn
    split at hn
    · simp only [Option.some.injEq] at hn; subst hn; exact h0
    · simp only [hx] at hn
      split at hn
      · simp only [Option.some.injEq] at hn; subst hn; exact h0
      · simp only [Bool.false_eq_true, if_false, Option.some.injEq] at hn
        subst hn
        refine applyMarks_ends _ _ _ h0 ?_
        intro m hm
        obtain ⟨s, k, t, h1, h2, -, h4, h5, h6⟩ := roundMarks_exact hl hcov sr.radius_nonneg hx hm
        have ms := List.mem_of_getElem? h1
        have mt := List.mem_of_getElem? h2
        by_cases hline : AllOnLine s.x t.x
        · rcases h6 hline with e | e
          · rw [e]; exact (h0 t mt).1
          · rw [e]; exact (h0 t mt).2
        · have hnl : ¬ (area2 s.a s.b t.a = 0 ∧ area2 s.a s.b t.b = 0) := by
            intro h
            have := all_line (Pt.ne_of_lt (hl s ms)) h.1 h.2
            exact hline ⟨h.1, h.2, this.1, this.2⟩
          rcases crossing_of_course (Pt.ne_of_lt (hl s ms)) (hcourse s ms) (Pt.ne_of_lt (hl t mt)) (hcourse t mt) hnl h4.on h5
            with ⟨e, hem, h⟩ | h
          · obtain ⟨m1, m2⟩ := lines_mem hem
            rcases h with h | h
            · exact Or.inl (by rw [h]; exact m1)
            · exact Or.inl (by rw [h]; exact m2)
          · exact Or.inr h

/-- C82 (slicing): every vertex of the pieces of a shape cut by lines was given, or two given edges or lines cross in it. -/
theorem C82_slice (x : Externals) (order : List Pt → Bool) (ho : OrderOk order) (rule : FillRule) {sc : ScanOracle CountStr}
    (hsc : sc.Ok) (hE : EndSort x.sortE)
    (hn : st = .list ∨ ∀ r, nodedEdges st sr tree fuel (stringSegments shape paths contours) = some r → 2 < r.length)
    {shapes : List (List (List Pt))} (hs : sliceBy x order rule st sr tree sc fuel shape paths contours = some shapes) :
    ∀ s ∈ shapes, ∀ c ∈ s, ∀ p ∈ c, GivenOrCrossingLines shape paths contours p := by
  obtain ⟨r, hr⟩ := slice_noded hs
  have n1 : st = .list ∨ 2 < r.length := hn.imp_right fun h => h r hr
  have hb := noded_origin_lines ht hf hns hin hw hr n1
  obtain ⟨-, h2, -⟩ := C58_slice_shapes x order ho rule st sr tree ht sc hsc fuel hE shape paths contours hf r hr n1 shapes hs
  intro s hsm c hc p hp
  have hd := (h2 c (List.mem_flatten.2 ⟨s, hsm, hc⟩)).along
  obtain ⟨q, hq⟩ := polyEdges_start hp
  rcases hd _ hq with h | h
  · obtain ⟨e, he, h⟩ := List.mem_map.1 h
    rw [← (Prod.mk.inj h).1]; exact (hb e he).1
  · obtain ⟨e, he, h⟩ := List.mem_map.1 h
    have e2 : e.b = p := (Prod.mk.inj h).2
    rw [← e2]; exact (hb e he).2

/-- C82 (clipping): the same for the vertices of the lines clipped by a shape. -/
theorem C82_clip (clip : ClipRule) (rule : FillRule) {sc : ScanOracle CountStr} (hsc : sc.Ok) {sortE : List End → List End}
    (hE : EndSort sortE)
    (hn : st = .list ∨ ∀ r, nodedEdges st sr tree fuel (stringSegments shape paths contours) = some r → 2 < r.length)
    {out : List (List Pt)}
    (h : clipLines clip rule st sr tree sc fuel sortE (stringSegments shape paths contours) = some out) :
    ∀ l ∈ out, ∀ p ∈ l, GivenOrCrossingLines shape paths contours p := by
  obtain ⟨r, hr⟩ := clip_noded h
  have n1 : st = .list ∨ 2 < r.length := hn.imp_right fun h => h r hr
  have hb := noded_origin_lines ht hf hns hin hw hr n1
  obtain ⟨o, K, a1, a2, a3, -⟩ := C29_clip clip rule st sr tree ht sc hsc fuel sortE hE shape paths contours hf r hr n1
  rw [h] at a1
  obtain rfl := Option.some.inj a1
  intro l hl p hp
  have step : ∃ e ∈ l.zip l.tail, p = e.1 ∨ p = e.2 := by
    have h2 := a2 l hl
    clear a2 a3 hl
    induction l with
    | nil => simp at hp
    | cons a l ih =>
      rcases l with _ | ⟨b, l⟩
      · simp at h2
      rcases List.mem_cons.1 hp with rfl | hp
      · exact ⟨(p, b), by simp, Or.inl rfl⟩
      rcases l with _ | ⟨c, l⟩
      · rw [List.mem_singleton] at hp; subst hp
        exact ⟨(a, p), by simp, Or.inr rfl⟩
      · obtain ⟨e, he, h⟩ := ih hp (by simp)
        exact ⟨e, by simp only [List.tail_cons, List.zip_cons_cons, List.mem_cons] at he ⊢; exact Or.inr he, h⟩
  obtain ⟨e, he, hpe⟩ := step
  have hm := a3.mem_iff.1 (List.mem_flatMap.2 ⟨l, hl, he⟩)
  obtain ⟨s, hs, hes⟩ := List.mem_flatMap.1 hm
  obtain ⟨b1, b2⟩ := hb s (List.mem_filter.1 hs).1
  rcases (mem_pieces s e.1 e.2).1 hes with ⟨-, e1, e2⟩ | ⟨-, e1, e2⟩ <;> rcases hpe with rfl | rfl
  · rw [e1]; exact b1
  · rw [e2]; exact b2
  · rw [e1]; exact b2
  · rw [e2]; exact b1

end

/-- A line through a square meets the hypotheses of `C82_slice` and `C82_clip`; it crosses the square in a new vertex. -/
example : OrderOk exOrder ∧ EndSort exRaw.sortE ∧ FragOk .list ⟨0, 1⟩ (stringSegments cutSquare [[⟨20, -5⟩, ⟨20, 45⟩]] []) ∧
    (∀ c ∈ cutSquare, NotClosedExplicitly c) ∧ (∀ c ∈ cutSquare ++ [[⟨20, -5⟩, ⟨20, 45⟩]] ++ [], ∀ p ∈ c, InRange p) ∧
    WholeCrossings (cutSquare.flatMap polyEdges ++ userLines [[⟨20, -5⟩, ⟨20, 45⟩]] []) ∧
    CrossingOf (cutSquare.flatMap polyEdges ++ userLines [[⟨20, -5⟩, ⟨20, 45⟩]] []) ⟨20, 0⟩ ∧
    clipLines ⟨false, true⟩ .nonZero .list ⟨0, 1⟩ (bruteTree CountStr) listScanOracle 5 exRaw.sortE
      (stringSegments cutSquare [[⟨20, -5⟩, ⟨20, 45⟩]] []) = some [[⟨20, 0⟩, ⟨20, 40⟩]] :=
  ⟨orderOk_area, exRaw_assumed.1.sortE, FragOk.list _ _, by decide, by unfold InRange; decide, decide_whole (by decide +kernel),
    ⟨(⟨0, 0⟩, ⟨40, 0⟩), by decide, (⟨20, -5⟩, ⟨20, 45⟩), by decide, by decide,
      ⟨1 / 2, by norm_num, by norm_num, by norm_num [Pt.q], by norm_num [Pt.q]⟩,
      ⟨1 / 10, by norm_num, by norm_num, by norm_num [Pt.q], by norm_num [Pt.q]⟩⟩, by decide +kernel⟩

end IOverlay
