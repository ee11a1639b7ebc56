/-
Operations on results of operations: the edges of a result run along the noded edges, which run along the given edges if
all crossings are whole. C57.
-/
import Verif.Props.Whole
import Verif.Props.Bounds

namespace IOverlay

/-! ### segments along segments -/

theorem Along.sub {E : List (Pt × Pt)} {a b u v : Pt} (h : Along E a b) (hu : onSeg u.q a b) (hv : onSeg v.q a b) :
    Along E u v := by
  intro q hq
  rcases h q (onSeg_sub hu hv hq) with h | ⟨e, e1, e2, e3, e4⟩
  · exact Or.inl h
  · refine Or.inr ⟨e, e1, e2, ?_⟩
    by_cases hab : a = b
    · subst hab
      have : u = v := by
        have h1 := onSeg_self hu
        have h2 := onSeg_self hv
        exact Pt.q_inj (h1.trans h2.symm)
      subst this
      constructor <;> (unfold area2; ring)
    · have hu' : area2 a b u = 0 := by obtain ⟨t, -, -, ht⟩ := hu; have := qarea_self ht; rwa [qarea_q, Int.cast_eq_zero] at this
      have hv' : area2 a b v = 0 := by obtain ⟨t, -, -, ht⟩ := hv; have := qarea_self ht; rwa [qarea_q, Int.cast_eq_zero] at this
      exact ⟨area2_on_line hab hu' hv' e3, area2_on_line hab hu' hv' e4⟩

theorem Along.comp {E E' : List (Pt × Pt)} {a b : Pt} (hE : ∀ e ∈ E', Along E e.1 e.2) (h : Along E' a b) :
    Along E a b := by
  intro q hq
  rcases h q hq with ⟨h1, e, h2, h3⟩ | ⟨e, h1, h2, h3, h4⟩
  · exact Or.inl ⟨h1, (hE e h2).on h3⟩
  · by_cases he : e.1 = e.2
    · refine Or.inl ⟨⟨e.1, ?_⟩, (hE e h1).on h2.on⟩
      have := h2.on
      rw [← he] at this
      exact onSeg_self this
    · rcases hE e h1 q h2.on with h | ⟨f, f1, f2, f3, f4⟩
      · exact Or.inl h
      · refine Or.inr ⟨f, f1, f2, ?_⟩
        by_cases hab : a = b
        · subst hab; constructor <;> (unfold area2; ring)
        · obtain ⟨k1, k2⟩ := all_line hab h3 h4
          exact ⟨area2_on_line he k1 k2 f3, area2_on_line he k1 k2 f4⟩

theorem Along.mono {E E' : List (Pt × Pt)} {a b : Pt} (hE : ∀ e ∈ E', e ∈ E) (h : Along E' a b) : Along E a b :=
  h.comp fun e he => Along.edge (hE e he)

/-- Segments along edges that cross in whole points cross in whole points. -/
theorem WholeCrossings.along {E E' : List (Pt × Pt)} (hw : WholeCrossings E)
    (h : ∀ e ∈ E', e.1 ≠ e.2 ∧ Along E e.1 e.2) : WholeCrossings E' := by
  intro e he f hf hn q h1 h2
  refine whole_of_along hw (h e he).1 (h e he).2 (h f hf).1 (h f hf).2 ?_ h1.on h2.on
  intro hc
  rcases hn with hn | hn
  · exact hn hc.1
  · exact hn hc.2

/-- Noded edges meet at their ends, so they cross in whole points. -/
theorem Planar.whole {segs : List (Seg C)} (h : Planar segs) : WholeCrossings (segs.map fun s => (s.a, s.b)) := by
  intro e he f hf hn q h1 h2
  obtain ⟨s, hs, rfl⟩ := List.mem_map.1 he
  obtain ⟨t, ht, rfl⟩ := List.mem_map.1 hf
  by_cases hst : s = t
  · subst hst
    exfalso
    rcases hn with hn | hn
    · exact hn (by unfold area2; ring)
    · exact hn (by unfold area2; ring)
  · rcases (h.meet hs ht hst q h1.on h2.on).1 with e | e
    · exact ⟨_, e⟩
    · exact ⟨_, e⟩

/-! ### the edges of a result -/

/-- Contract of `clean` (`simplify_contour` / `dedup_contour`, external): if no edge of the given contour is a point, no
edge of the cleaned one is, and these run along the given ones (dropping the middle one of three points on a line). -/
def CleanEdges (clean : List Pt → List Pt × Bool) : Prop :=
  ∀ c, (∀ e ∈ polyEdges c, e.1 ≠ e.2) → ∀ e ∈ polyEdges (clean c).1, e.1 ≠ e.2 ∧ Along (polyEdges c) e.1 e.2

theorem Keeps.edges {clean : List Pt → List Pt × Bool} (h : Keeps clean) : CleanEdges clean := by
  intro c hc e he
  rw [h c hc] at he
  exact ⟨hc e he, Along.edge he⟩

/-- The returned contours are walks, cleaned. -/
theorem Returned.mem {clean : List Pt → List Pt × Bool} {valid : List Pt → Bool} {ws : List Walked}
    {shapes : List (List (List Pt))} (h : Returned clean valid ws shapes) :
    ∀ s ∈ shapes, ∀ c ∈ s, ∃ w ∈ ws, c = (clean w.raw).1 := by
  obtain ⟨parents, h1⟩ := h
  intro s hs c hc
  dsimp only at h1
  rcases h1 with ⟨-, rfl⟩ | ⟨-, -, rfl⟩
  · simp at hs
  · obtain ⟨i, hi, rfl⟩ := List.mem_mapIdx.1 hs
    rcases List.mem_cons.1 hc with rfl | hc
    · have hm := List.getElem_mem hi
      obtain ⟨w, hw, e⟩ := List.mem_map.1 hm
      exact ⟨w, (List.mem_filter.1 hw).1, e.symm⟩
    · obtain ⟨y, hy, rfl⟩ := List.mem_map.1 hc
      have hm := (List.of_mem_zip (List.mem_filter.1 hy).1).1
      obtain ⟨w, hw, e⟩ := List.mem_map.1 hm
      exact ⟨w, (List.mem_filter.1 hw).1, e.symm⟩

/-- The edges of the returned contours run along noded edges. -/
theorem RunOk.along {rule : FillRule} {r : OverlayRule} {segs : List (Seg CountBool)} {g : Graph} {V : List Pt}
    {vis : List Bool} (h : RunOk rule r segs g V vis) (cw : Bool) {x : Externals} {minArea : Nat}
    (hcl : CleanEdges x.clean)
    {shapes : List (List (List Pt))} (he : IOverlay.extract x g r cw minArea vis = some shapes) :
    ∀ c ∈ shapes.flatten, ∀ e ∈ polyEdges c, e.1 ≠ e.2 ∧ Along (segs.map fun s => (s.a, s.b)) e.1 e.2 := by
  obtain ⟨ws, h1, h2, -, -, -⟩ := h.returned cw he
  obtain ⟨inc, F, e1, -, -⟩ := h.filter
  intro c hc e he'
  obtain ⟨s, hs, hcs⟩ := List.mem_flatten.1 hc
  obtain ⟨w, hw, rfl⟩ := h1.mem s hs c hcs
  obtain ⟨k1, k2⟩ := hcl _ (trail_steps h (h2 w hw).1) e he'
  refine ⟨k1, k2.comp ?_⟩
  intro d hd
  obtain ⟨hlen, hget⟩ := List.forall₂_iff_get.1 (h2 w hw).1
  obtain ⟨n, hn, rfl⟩ := List.mem_iff_getElem.1 hd
  obtain ⟨l, hl, hle⟩ := hget n (by omega) hn
  have hm : (l.a, l.b, l.fill) ∈ g.links.map (fun l => (l.a, l.b, l.fill)) :=
    List.mem_map_of_mem (f := fun l : Link => (l.a, l.b, l.fill)) (List.mem_of_getElem? hl)
  rw [e1] at hm
  obtain ⟨s, hs, hse⟩ := List.mem_map.1 hm
  simp only [Prod.mk.injEq] at hse
  have hin : (l.a, l.b) ∈ segs.map fun s => (s.a, s.b) :=
    List.mem_map.2 ⟨s, (List.mem_filter.1 hs).1, by rw [hse.1, hse.2.1]⟩
  rw [List.get_eq_getElem] at hle
  rcases hle with hle | hle
  · rw [hle]; exact Along.edge hin
  · rw [hle]; exact (Along.edge hin).symm

/-- A contour without edges that are points does not repeat its first point at the end. -/
theorem notClosed_of_edges {c : List Pt} (h : ∀ e ∈ polyEdges c, e.1 ≠ e.2) : NotClosedExplicitly c := by
  rcases c with _ | ⟨p, _ | ⟨p1, rest⟩⟩
  · intro hl; simp at hl
  · intro hl; simp at hl
  · intro _
    have hlast : ((p1 :: rest).getLast (by simp), p) ∈ polyEdges (p :: p1 :: rest) := by
      rw [polyEdges_eq_pathSteps (p := p) rfl, pathSteps_append (a := (p1 :: rest).getLast (by simp)) (by
        rw [List.getLast?_cons_cons, List.getLast?_eq_getLast_of_ne_nil (by simp)])]
      simp
    rw [List.head?_cons, List.getLast?_cons_cons, List.getLast?_eq_getLast_of_ne_nil (by simp)]
    intro e
    exact h _ hlast (Option.some.inj e).symm

/-! ### the noded edges run along the given ones -/

theorem applyMarks_along [WindingCount C] {l : List (Seg C)} (hl : ∀ s ∈ l, s.a < s.b) {radius : Int} (hr : 0 ≤ radius)
    (hc : Covers (listPairs l) l)
    (hx : (roundMarks radius (listPairs l)).2 = false) {E : List (Pt × Pt)} (hE : ∀ s ∈ l, Along E s.a s.b) :
    ∀ s ∈ applyMarks (roundMarks radius (listPairs l)).1 l, Along E s.a s.b := by
  intro s hs
  unfold applyMarks at hs
  obtain ⟨e, h1, h2, h3⟩ := mergeIfNeeded_edges _ s hs
  rw [(sortSegs_perm _).mem_iff, mem_splitAll] at h1
  obtain ⟨i, t, ht, hm⟩ := h1
  rw [Nat.zero_add] at hm
  obtain ⟨-, -, a1, a2, -⟩ := splitSeg_piece hl hc hr hx ht hm
  have := (hE t (List.mem_of_getElem? ht)).sub (onChain_onSeg hl hc hr hx ht a1) (onChain_onSeg hl hc hr hx ht a2)
  rwa [← h2, ← h3] at this

theorem splitSegments_along [WindingCount C] (sr : SnapRadius)
    (tree : TreeOracle C) (fuel : Nat) (segs r : List (Seg C)) (hl : ∀ s ∈ segs, s.a < s.b)
    (hx : (roundMarks sr.radius (listPairs (mergeIfNeeded (sortSegs segs)))).2 = false)
    (he : splitSegments .list sr tree fuel segs = some r) {E : List (Pt × Pt)} (hE : ∀ s ∈ segs, Along E s.a s.b) :
    ∀ s ∈ r, Along E s.a s.b := by
  have h0 : ∀ s ∈ mergeIfNeeded (sortSegs segs), Along E s.a s.b := by
    intro s hs
    obtain ⟨e, h1, h2, h3⟩ := mergeIfNeeded_edges _ s hs
    rw [(sortSegs_perm _).mem_iff] at h1
    have := hE e h1
    rwa [← h2, ← h3] at this
  unfold splitSegments at he
  simp only [isListSplit, if_true] at he
  cases fuel with
  | zero => simp [splitLoop] at he
  | succ n =>
    rw [splitLoop] at he
    split at he
    · simp only [Option.some.injEq] at he; subst he; exact h0
    · simp only [hx] at he
      split at he
      · simp only [Option.some.injEq] at he; subst he; exact h0
      · simp only [Bool.false_eq_true, if_false, Option.some.injEq] at he
        subst he
        exact applyMarks_along (start_lt hl) sr.radius_nonneg
          (listPairs_covers _ (sorted_of_strict (start_sorted segs)) (start_lt hl)) hx h0

/-- If all crossings are whole, the noded edges run along the given ones, for every strategy and precision. -/
theorem noded_along {st : Strategy} {sr : SnapRadius} {tree : TreeOracle CountBool} (ht : tree.Ok) {fuel : Nat}
    {subj clip : List (List Pt)} {segs : List (Seg CountBool)}
    (hf : FragOk st sr (overlaySegments subj clip : List (Seg CountBool)))
    (hns : ∀ c ∈ subj, NotClosedExplicitly c) (hnc : ∀ c ∈ clip, NotClosedExplicitly c)
    (hin : ∀ c ∈ subj ++ clip, ∀ p ∈ c, InRange p) (hw : WholeCrossings ((subj ++ clip).flatMap polyEdges))
    (he : nodedEdges st sr tree fuel (overlaySegments subj clip) = some segs) :
    ∀ s ∈ segs, Along ((subj ++ clip).flatMap polyEdges) s.a s.b := by
  have hx := overlay_not_round hns hnc hin hw sr.radius
  unfold nodedEdges at he
  split at he
  · rw [← Option.some.inj he]; simp
  · obtain ⟨n, hn⟩ := (C38_strategies_agree_partial st .list sr tree ht subj clip hf (FragOk.list sr _) segs).1 ⟨fuel, he⟩
    exact splitSegments_along sr tree n _ segs (overlaySegments_lt subj clip) hx hn (overlaySegments_along hns hnc)

/-! ### horizontal and vertical edges -/

/-- A segment along horizontal and vertical edges is horizontal or vertical. -/
theorem Along.axis {E : List (Pt × Pt)} (h : ∀ e ∈ E, e.1.x = e.2.x ∨ e.1.y = e.2.y) {a b : Pt} (hab : Along E a b) :
    a.x = b.x ∨ a.y = b.y := by
  by_contra hc
  rw [not_or] at hc
  obtain ⟨hx, hy⟩ := hc
  -- a point of the segment that is not whole
  have hd : (b.x - a.x : ℤ) ≠ 0 := by omega
  set d : ℚ := ((b.x - a.x : ℤ) : ℚ) with hdd
  have hd' : d ≠ 0 := by rw [hdd]; exact_mod_cast hd
  have habs : 1 ≤ |d| := by
    rw [hdd, ← Int.cast_abs]
    have := Int.one_le_abs hd
    exact_mod_cast this
  have hpos : (0 : ℚ) < |d| := by linarith
  set t : ℚ := 1 / (2 * |d|) with ht
  have t0 : 0 ≤ t := by positivity
  have t1 : t ≤ 1 := by rw [ht, div_le_one (by positivity)]; linarith
  have hq : onSeg ⟨a.x + t * (b.x - a.x), a.y + t * (b.y - a.y)⟩ a b := ⟨t, t0, t1, by ring, by ring⟩
  have hn : ¬ ∃ p : Pt, (⟨a.x + t * (b.x - a.x), a.y + t * (b.y - a.y)⟩ : QPt) = p.q := by
    rintro ⟨p, hp⟩
    have hpx := congrArg QPt.x hp
    simp only [Pt.q] at hpx
    have htd : |t * d| = 1 / 2 := by
      rw [abs_mul, abs_of_nonneg t0, ht]; field_simp
    have e : t * d = ((p.x - a.x : ℤ) : ℚ) := by rw [hdd]; push_cast; linarith
    rw [e, ← Int.cast_abs] at htd
    have h2 : (2 * |p.x - a.x| : ℤ) = 1 := by
      have : (2 : ℚ) * ((|p.x - a.x| : ℤ) : ℚ) = 1 := by rw [htd]; norm_num
      exact_mod_cast this
    omega
  rcases hab _ hq with hw | ⟨e, he, e1, e2, e3⟩
  · exact hn hw.1
  · have hne : e.1 ≠ e.2 := by
      intro hee
      have := e1.on
      rw [← hee] at this
      exact hn ⟨e.1, onSeg_self this⟩
    have key : (b.x - a.x) * (e.2.y - e.1.y) = (b.y - a.y) * (e.2.x - e.1.x) := by
      unfold area2 at e2 e3
      linear_combination e2 - e3
    rcases h e he with h | h
    · have : (b.x - a.x) * (e.2.y - e.1.y) = 0 := by rw [key, h]; ring
      rcases mul_eq_zero.1 this with h' | h'
      · omega
      · exact hne (Pt.ext_iff'.2 ⟨h, by omega⟩)
    · have : (b.y - a.y) * (e.2.x - e.1.x) = 0 := by rw [← key, h]; ring
      rcases mul_eq_zero.1 this with h' | h'
      · omega
      · exact hne (Pt.ext_iff'.2 ⟨by omega, h⟩)

end IOverlay
