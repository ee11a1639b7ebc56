/-
C24 when no point is the left end of more than two edges of the result: exactly the contours that are large enough
are returned, and they are oriented and nested as without a limit (C41, C42).
-/
import Verif.Walks
import Verif.Props.Attach

namespace IOverlay

/-- The outer contours of shapes: the first contour of every shape. -/
def outerContours (shapes : List (List (List Pt))) : List (List Pt) := shapes.flatMap fun s => s.take 1

/-- The holes of shapes: the other contours. -/
def holeContours (shapes : List (List (List Pt))) : List (List Pt) := shapes.flatMap fun s => s.drop 1

theorem take_drop_perm (shapes : List (List (List Pt))) :
    shapes.flatten.Perm (outerContours shapes ++ holeContours shapes) := by
  unfold outerContours holeContours
  induction shapes with
  | nil => simp
  | cons s l ih =>
    rw [List.flatten_cons, List.flatMap_cons, List.flatMap_cons]
    refine (List.Perm.append_left s ih).trans ?_
    conv_lhs => rw [← List.take_append_drop 1 s]
    rw [List.append_assoc, List.append_assoc]
    refine List.Perm.append_left _ ?_
    rw [← List.append_assoc, ← List.append_assoc]
    exact List.Perm.append_right _ List.perm_append_comm

/-- Three positions of a list at which a property holds. -/
theorem three_positions {α : Type} {l : List α} (P : α → Bool) (h : (l.filter P).length ≤ 2) {i j k : Nat} {a b c : α}
    (hi : l[i]? = some a) (hj : l[j]? = some b) (hk : l[k]? = some c) (pa : P a = true) (pb : P b = true) (pc : P c = true) :
    i = j ∨ i = k ∨ j = k := by
  by_contra hn
  push Not at hn
  obtain ⟨n1, n2, n3⟩ := hn
  have e : ((List.range l.length).filter fun i => (l[i]?).any P).length = (l.filter P).length := by
    have := congrArg (fun m => (m.filter fun o : Option α => o.any P).length) (range_map_get l)
    simp only [List.filter_map, List.length_map] at this
    exact this
  have hs : [i, j, k].Subperm ((List.range l.length).filter fun i => (l[i]?).any P) := by
    refine List.subperm_of_subset ?_ ?_
    · simp [n1, n2, n3]
    · intro x hx
      simp only [List.mem_cons, List.not_mem_nil, or_false] at hx
      rw [List.mem_filter, List.mem_range]
      rcases hx with rfl | rfl | rfl
      · exact ⟨(List.getElem?_eq_some_iff.1 hi).1, by rw [hi]; exact pa⟩
      · exact ⟨(List.getElem?_eq_some_iff.1 hj).1, by rw [hj]; exact pb⟩
      · exact ⟨(List.getElem?_eq_some_iff.1 hk).1, by rw [hk]; exact pc⟩
  have := hs.length_le
  rw [e] at this
  simp at this
  omega

theorem twoRight_links {g : Graph} {F : Fill → Bool}
    (h : ∀ p, ((g.links.filter fun l => !F l.fill).filter fun l => decide (l.a = p)).length ≤ 2) :
    TwoRight g (g.links.map fun l => F l.fill) := by
  have hv : ∀ i l, g.links[i]? = some l → isVisited (g.links.map fun l => F l.fill) i = false → F l.fill = false := by
    intro i l hl hv
    unfold isVisited at hv
    rw [List.getD_eq_getElem?_getD, List.getElem?_map, hl] at hv
    exact hv
  intro i j k l m n hi hj hk vi vj vk e1 e2
  have h' := h l.a
  rw [List.filter_filter] at h'
  exact three_positions _ h' hi hj hk (by simp [hv i l hi vi]) (by simp [hv j m hj vj, e1]) (by simp [hv k n hk vk, e2])

/-- The contours of the shapes returned by an extraction. -/
theorem extract_contours {x : Externals} {g : Graph} {r : OverlayRule} {cw : Bool} {minArea : Nat} {vis : List Bool}
    {shapes : List (List (List Pt))} {e : Extracted} (he : extractContours g r cw x.clean minArea vis = some e)
    (h : extract x g r cw minArea vis = some shapes) :
    outerContours shapes = e.shapes ∧ (e.shapes = [] ∨ (holeContours shapes).Perm e.holes) ∧ ∀ sh ∈ shapes, sh ≠ [] := by
  unfold extract at h
  rw [he, Option.bind_some] at h
  dsimp only at h
  unfold outerContours
  by_cases hs : e.shapes = []
  · rw [hs] at h
    have : shapes = [] := by
      unfold joinSortedHoles at h
      simpa using h.symm
    rw [this, hs]
    exact ⟨rfl, Or.inl rfl, by simp⟩
  · obtain ⟨p, parents, p1, p2, p3⟩ := C25_join_sorted _ _ _ _ _ _ _ (by simpa using hs) h
    have h1 : ∀ (l : List (List Pt)) (f : Nat → List Pt → List (List Pt)),
        ((l.map fun c => [c]).mapIdx fun i s => s ++ f i s.head!).flatMap (fun s => s.take 1) = l := by
      intro l
      induction l with
      | nil => intro f; rfl
      | cons c l ih =>
        intro f
        rw [List.map_cons, List.mapIdx_cons, List.flatMap_cons]
        have := ih fun i s => f (i + 1) s
        rw [this]; rfl
    have ho : shapes.flatMap (fun s => s.take 1) = e.shapes := by
      rw [p3]
      exact h1 e.shapes fun i _ => ((e.holes.zip parents).filter fun h => decide (h.2 = i)).map (·.1)
    refine ⟨ho, Or.inr ?_, ?_⟩
    · have e2 : ∀ l : List (List Pt), (l.map fun c => [c]).flatten = l := by
        intro l; induction l <;> simp_all
      rw [e2] at p
      have := (take_drop_perm shapes).symm.trans p
      unfold outerContours at this
      rw [ho] at this
      exact (List.perm_append_left_iff _).1 this
    · intro sh hsh
      rw [p3] at hsh
      obtain ⟨i, hi, rfl⟩ := List.mem_mapIdx.1 hsh
      rw [List.getElem_map]
      simp

open Classical in
theorem keptContours_filter (clean : List Pt → List Pt × Bool) (minArea : Nat) (b : Bool) (ws : List Walked) :
    keptContours clean minArea b ws = (keptContours clean 0 b ws).filter fun c => decide (LargeEnough minArea c) := by
  unfold keptContours
  rw [List.filter_map, List.filter_filter]
  congr 1
  refine List.filter_congr fun w _ => ?_
  rw [Bool.eq_iff_iff]
  simp only [Function.comp, Bool.and_eq_true, decide_eq_true_eq, validate_iff]
  unfold LargeEnough
  constructor
  · rintro ⟨h1, h2, h3⟩; exact ⟨⟨h2, h3⟩, h1, h2, Nat.zero_le _⟩
  · rintro ⟨⟨h2, h3⟩, h1, -⟩; exact ⟨h1, h2, h3⟩

section
variable {rule : FillRule} {r : OverlayRule} {segs : List (Seg CountBool)} {g : Graph} {V : List Pt}
  {vis : List Bool} (h : RunOk rule r segs g V vis)
include h

open Classical in
/-- With a limit exactly the large enough contours of those without a limit are returned. -/
theorem RunOk.area_filter (cw : Bool) {x : Externals} {minArea : Nat} (h2 : TwoRight g vis)
    {all shapes : List (List (List Pt))} (h0 : IOverlay.extract x g r cw 0 vis = some all)
    (he : IOverlay.extract x g r cw minArea vis = some shapes) :
    outerContours shapes = (outerContours all).filter (fun c => decide (LargeEnough minArea c)) ∧
    (shapes = [] ∨ (holeContours shapes).Perm ((holeContours all).filter fun c => decide (LargeEnough minArea c))) ∧
    ∀ sh ∈ shapes, sh ≠ [] := by
  obtain ⟨ws, -, -, hw⟩ := h.walks cw h2
  obtain ⟨e, e1, e2, e3⟩ := hw x.clean minArea
  obtain ⟨e', e1', e2', e3'⟩ := hw x.clean 0
  obtain ⟨c1, c2, c3⟩ := extract_contours e1 he
  obtain ⟨c1', c2', -⟩ := extract_contours e1' h0
  have ho : outerContours shapes = (outerContours all).filter (fun c => decide (LargeEnough minArea c)) := by
    rw [c1, c1', e2, e2', keptContours_filter]
  refine ⟨ho, ?_, c3⟩
  by_cases hs : outerContours shapes = []
  · left
    rcases shapes with _ | ⟨s, l⟩
    · rfl
    · exfalso
      unfold outerContours at hs
      rw [List.flatMap_cons, List.append_eq_nil_iff] at hs
      have := c3 s (by simp)
      rcases s with _ | ⟨a, s⟩
      · exact this rfl
      · simp at hs
  · right
    rcases c2 with h | h
    · rw [c1] at hs; exact absurd h hs
    · rcases c2' with h' | h'
      · rw [ho, c1', h'] at hs; simp at hs
      · refine h.trans ?_
        rw [e3, keptContours_filter, ← e3']
        exact (h'.filter _).symm

theorem RunOk.filtered_oriented (cw : Bool) {x : Externals} (hc : CleanOk x.clean) {minArea : Nat} (h2 : TwoRight g vis)
    {shapes : List (List (List Pt))} (he : IOverlay.extract x g r cw minArea vis = some shapes) :
    (∀ sh ∈ shapes, OrientedShape cw sh) ∧ shapes.flatten.Pairwise Nested := by
  classical
  obtain ⟨ws, -, -, hw⟩ := h.walks cw h2
  obtain ⟨e, e1, e2, e3⟩ := hw x.clean minArea
  obtain ⟨e', e1', e2', e3'⟩ := hw x.clean 0
  obtain ⟨fs, f1, f2, -, f4, f5, -⟩ := h.oriented cw hc e1'
  obtain ⟨c1, c2, c3⟩ := extract_contours e1 he
  have so : e.shapes.Sublist e'.shapes := by rw [e2, e2', keptContours_filter]; exact List.filter_sublist
  have sh' : e.holes.Sublist e'.holes := by rw [e3, e3', keptContours_filter]; exact List.filter_sublist
  have ho : ∀ c ∈ outerContours shapes, WindsOnce (outerTurn cw) c := by
    intro c hc'
    rw [c1] at hc'
    have := so.subset hc'
    rw [f1] at this
    obtain ⟨f, hf, rfl⟩ := List.mem_map.1 this
    rw [List.mem_filter] at hf
    have := f4 f hf.1
    have hh : f.hole = false := by simpa using hf.2
    rw [hh] at this
    exact this
  have hcon : ∀ c ∈ holeContours shapes, c ∈ e.holes := by
    rcases c2 with h | h
    · have : shapes = [] := by
        rcases shapes with _ | ⟨s, l⟩
        · rfl
        · exfalso
          rw [h] at c1
          unfold outerContours at c1
          rw [List.flatMap_cons, List.append_eq_nil_iff] at c1
          have := c3 s (by simp)
          rcases s with _ | ⟨a, s⟩
          · exact this rfl
          · simp at c1
      rw [this]; intro c hc'; simp [holeContours] at hc'
    · intro c hc'; exact h.mem_iff.1 hc'
  have hh : ∀ c ∈ holeContours shapes, WindsOnce (- outerTurn cw) c := by
    intro c hc'
    have := sh'.subset (hcon c hc')
    rw [f2] at this
    obtain ⟨f, hf, rfl⟩ := List.mem_map.1 this
    rw [List.mem_filter] at hf
    have := f4 f hf.1
    rw [hf.2] at this
    exact this
  refine ⟨?_, ?_⟩
  · intro sh hsh
    have hne := c3 sh hsh
    rcases sh with _ | ⟨a, l⟩
    · exact absurd rfl hne
    · refine ⟨a, l, rfl, ho a ?_, fun c hc' => hh c ?_⟩
      · exact List.mem_flatMap.2 ⟨_, hsh, by simp⟩
      · exact List.mem_flatMap.2 ⟨_, hsh, by simpa using hc'⟩
  · have hall : (e'.shapes ++ e'.holes).Perm (fs.map fun f => (x.clean f.raw).1) := by
      rw [f1, f2, ← List.map_append]
      refine List.Perm.map _ ?_
      refine List.Perm.trans ?_ (List.filter_append_perm (fun w : Found => !w.hole) fs)
      refine List.Perm.append_left _ ?_
      refine List.Perm.of_eq (List.filter_congr fun w _ => ?_)
      simp
    have hn : (e'.shapes ++ e'.holes).Pairwise Nested := hall.symm.pairwise f5 (fun h => Nested.symm h)
    have hn' : (e.shapes ++ e.holes).Pairwise Nested := hn.sublist (so.append sh')
    refine (take_drop_perm shapes).symm.pairwise ?_ (fun h => Nested.symm h)
    rcases c2 with h | h
    · have : holeContours shapes = [] := by
        rcases shapes with _ | ⟨s, l⟩
        · rfl
        · exfalso
          rw [h] at c1
          unfold outerContours at c1
          rw [List.flatMap_cons, List.append_eq_nil_iff] at c1
          have := c3 s (by simp)
          rcases s with _ | ⟨a, s⟩
          · exact this rfl
          · simp at c1
      rw [this, c1, h]; exact List.Pairwise.nil
    · rw [c1]
      exact (List.Perm.append_left _ h).symm.pairwise hn' (fun h => Nested.symm h)

open Classical in
/-- The contours of the region, and those of them that an extraction returns. -/
theorem RunOk.contours {F : Fill → Bool} (hv : vis = g.links.map fun l => F l.fill) (cw : Bool) (h2 : TwoRight g vis) :
    ∃ outer holes : List (List Pt),
      (((outer ++ holes).flatMap polyEdges).map leftToRight).Perm
        ((g.links.filter fun l => !F l.fill).map fun l => (l.a, l.b)) ∧
      (∀ q, polysWind (outer ++ holes) q = outerTurn cw *
        if ruleAt rule r (segsWind CountBool.subj segs q, segsWind CountBool.clip segs q) then 1 else 0) ∧
      (∀ c ∈ outer, WindsOnce (outerTurn cw) c) ∧ (∀ c ∈ holes, WindsOnce (- outerTurn cw) c) ∧
      (outer ++ holes).Pairwise Nested ∧
      ∀ (x : Externals) (minArea : Nat) (shapes : List (List (List Pt))),
        IOverlay.extract x g r cw minArea vis = some shapes →
        outerContours shapes =
          (outer.filter fun c => decide (LargeEnough minArea (x.clean c).1)).map (fun c => (x.clean c).1) ∧
        (shapes = [] ∨ (holeContours shapes).Perm
          ((holes.filter fun c => decide (LargeEnough minArea (x.clean c).1)).map fun c => (x.clean c).1)) ∧
        ∀ sh ∈ shapes, sh ≠ [] := by
  obtain ⟨ws, w1, w2, w3⟩ := h.walks cw h2
  obtain ⟨e0, e1, e2, e3⟩ := w3 (fun c => (c, false)) 0
  have hid : CleanOk fun c : List Pt => (c, false) := fun _ _ => rfl
  have hval : ∀ w ∈ ws, (validate (fun c => (c, false)) 0 w.raw).1 = true := by
    intro w hw
    have hn : (ws.flatMap (·.trail)).Nodup := w1.nodup_iff.2 (List.nodup_range.filter _)
    exact validate_trail h.planar hid ((List.nodup_flatMap.1 hn).1 w hw) (w2 w hw).2 (w2 w hw).1
  have hk : ∀ b, keptContours (fun c => (c, false)) 0 b ws = (ws.filter fun w => decide (w.hole = b)).map (·.raw) := by
    intro b
    unfold keptContours
    congr 1
    refine List.filter_congr fun w hw => ?_
    rw [hval w hw, Bool.and_true]
  have hkm : ∀ (clean : List Pt → List Pt × Bool) minArea b, keptContours clean minArea b ws =
      ((keptContours (fun c => (c, false)) 0 b ws).filter fun c => decide (LargeEnough minArea (clean c).1)).map
        fun c => (clean c).1 := by
    intro clean minArea b
    rw [hk, List.filter_map, List.map_map, List.filter_filter]
    unfold keptContours
    refine congrArg₂ _ rfl (List.filter_congr fun w _ => ?_)
    rw [Bool.eq_iff_iff]
    simp only [Function.comp, Bool.and_eq_true, decide_eq_true_eq, validate_iff, and_comm]
  obtain ⟨fs, f1, f2, -, f4, f5, f6⟩ := h.oriented cw hid e1
  have hall : (e0.shapes ++ e0.holes).Perm (fs.map (·.raw)) := by
    rw [f1, f2, ← List.map_append]
    refine List.Perm.map _ ?_
    refine List.Perm.trans ?_ (List.filter_append_perm (fun w : Found => !w.hole) fs)
    refine List.Perm.append_left _ ?_
    refine List.Perm.of_eq (List.filter_congr fun w _ => ?_)
    simp
  refine ⟨e0.shapes, e0.holes, ?_, ?_, ?_, ?_, ?_, ?_⟩
  · have hperm : (e0.shapes ++ e0.holes).Perm (ws.map (·.raw)) := by
      rw [e2, e3, hk, hk, ← List.map_append]
      refine List.Perm.map _ ?_
      have := List.filter_append_perm (fun w : Walked => decide (w.hole = false)) ws
      refine List.Perm.trans (List.Perm.append_left _ (List.Perm.of_eq (List.filter_congr fun w _ => ?_))) this
      cases w.hole <;> rfl
    refine ((hperm.flatMap_right polyEdges).map leftToRight).trans ?_
    rw [List.flatMap_map]
    apply map_some_perm
    rw [walked_edges h.graph.lt ws fun w hw => (w2 w hw).1, ← unvisited_edges F hv]
    exact w1.map _
  · intro q
    unfold polysWind
    rw [(hall.map fun c => polyWind c q).sum_eq]
    exact f6 q
  · intro c hc
    rw [f1] at hc
    obtain ⟨f, hf, rfl⟩ := List.mem_map.1 hc
    rw [List.mem_filter] at hf
    have := f4 f hf.1
    have hh : f.hole = false := by simpa using hf.2
    rw [hh] at this
    exact this
  · intro c hc
    rw [f2] at hc
    obtain ⟨f, hf, rfl⟩ := List.mem_map.1 hc
    rw [List.mem_filter] at hf
    have := f4 f hf.1
    rw [hf.2] at this
    exact this
  · exact hall.symm.pairwise f5 (fun h => Nested.symm h)
  · intro x minArea shapes he
    obtain ⟨em, m1, m2, m3⟩ := w3 x.clean minArea
    obtain ⟨c1, c2, c3⟩ := extract_contours m1 he
    refine ⟨by rw [c1, m2, hkm, e2], ?_, c3⟩
    by_cases hs : shapes = []
    · exact Or.inl hs
    · right
      rcases c2 with h | h
      · exfalso
        rw [h] at c1
        rcases shapes with _ | ⟨s, l⟩
        · exact hs rfl
        · unfold outerContours at c1
          rw [List.flatMap_cons, List.append_eq_nil_iff] at c1
          have := c3 s (by simp)
          rcases s with _ | ⟨a, s⟩
          · exact this rfl
          · simp at c1
      · refine h.trans (List.Perm.of_eq ?_)
        rw [m3, hkm, e3]

end

/-- No point is the left end of more than two of the edges. -/
def AtMostTwoRight (edges : List (Pt × Pt)) : Prop := ∀ p, (edges.filter fun e => decide (e.1 = p)).length ≤ 2

theorem atMostTwo_links {links : List Link} {g : Graph} {F : Fill → Bool}
    (h : AtMostTwoRight (links.map fun l => (l.a, l.b)))
    (e : (links.map fun l => (l.a, l.b)) = (g.links.filter fun l => !F l.fill).map fun l => (l.a, l.b)) :
    TwoRight g (g.links.map fun l => F l.fill) := by
  refine twoRight_links fun p => ?_
  have := h p
  rw [e, List.filter_map, List.length_map] at this
  exact this

/-- What `overlayCustom` extracts from. -/
theorem oneShot_state {k : Config} {x : Externals} (ha : Assumed k x) {r : OverlayRule} {rule : FillRule}
    {subj clip : List (List Pt)} (hf : FragFor k subj clip) {links : List Link}
    (hl : buildBoolean (isIncluded r) rule k.st k.sr k.tree k.scan k.fuel (overlaySegments subj clip) = some links)
    (h2 : AtMostTwoRight (links.map fun l => (l.a, l.b))) :
    ∃ segs g V vis, nodedEdges k.st k.sr k.tree k.fuel (overlaySegments subj clip) = some segs ∧
      RunOk rule r segs g V vis ∧ TwoRight g vis ∧ ∀ cw minArea,
        overlayCustom k x r rule cw minArea (overlaySegments subj clip) = extract x g r cw minArea vis := by
  obtain ⟨segs, g, V, q1, q2, q3, q4⟩ := runOk_oneShot ha.tree ha.scan ha.sortE hf hl
  refine ⟨segs, g, V, _, q1, q4, ?_, fun cw minArea => ?_⟩
  · have ev : List.replicate g.links.length false = g.links.map fun l => (fun _ => false) l.fill := by
      rw [List.map_const']
    rw [ev]
    refine atMostTwo_links (F := fun _ => false) h2 ?_
    have e := congrArg (List.map fun t : Pt × Pt × Fill => (t.1, t.2.1)) q3
    rw [List.map_map, List.map_map] at e
    rw [List.filter_eq_self.2 (by simp)]
    exact e.symm
  · unfold overlayCustom
    rw [hl, Option.bind_some, q2, Option.bind_some]

open Classical in
/-- C24 (one-shot overlay): if no point is the left end of more than two edges of the result, a positive area limit
returns exactly the contours that are large enough: the outer contours in the same order, and, if there are any, the
holes. -/
theorem C24_area_filter (k : Config) (x : Externals) (ha : Assumed k x) (r : OverlayRule) (rule : FillRule)
    (cw : Bool) (minArea : Nat) (subj clip : List (List Pt)) (hf : FragFor k subj clip) (links : List Link)
    (hl : buildBoolean (isIncluded r) rule k.st k.sr k.tree k.scan k.fuel (overlaySegments subj clip) = some links)
    (h2 : AtMostTwoRight (links.map fun l => (l.a, l.b))) (all shapes : List (List (List Pt)))
    (h0 : overlayCustom k x r rule cw 0 (overlaySegments subj clip) = some all)
    (h : overlayCustom k x r rule cw minArea (overlaySegments subj clip) = some shapes) :
    outerContours shapes = (outerContours all).filter (fun c => decide (LargeEnough minArea c)) ∧
    (shapes = [] ∨ (holeContours shapes).Perm ((holeContours all).filter fun c => decide (LargeEnough minArea c))) ∧
    ∀ sh ∈ shapes, sh ≠ [] := by
  obtain ⟨segs, g, V, vis, -, q1, q2, q3⟩ := oneShot_state ha hf hl h2
  rw [q3] at h0 h
  exact q1.area_filter cw q2 h0 h

open Classical in
/-- C24 against the region: if no point is the left end of more than two edges of the result, the returned contours are
exactly those contours of the region that are large enough after cleaning. The contours of the region: their edges are
the edges of the result, each once; together they wind once around every point of the region, in the requested
direction; outer contours and holes wind at most once, in opposite directions; contours are nested or disjoint. -/
theorem C24_contours (k : Config) (x : Externals) (ha : Assumed k x) (r : OverlayRule) (rule : FillRule)
    (cw : Bool) (minArea : Nat) (subj clip : List (List Pt)) (hf : FragFor k subj clip) (links : List Link)
    (hl : buildBoolean (isIncluded r) rule k.st k.sr k.tree k.scan k.fuel (overlaySegments subj clip) = some links)
    (h2 : AtMostTwoRight (links.map fun l => (l.a, l.b))) (shapes : List (List (List Pt)))
    (h : overlayCustom k x r rule cw minArea (overlaySegments subj clip) = some shapes) :
    ∃ (segs : List (Seg CountBool)) (outer holes : List (List Pt)),
      nodedEdges k.st k.sr k.tree k.fuel (overlaySegments subj clip) = some segs ∧
      (((outer ++ holes).flatMap polyEdges).map leftToRight).Perm (links.map fun l => (l.a, l.b)) ∧
      (∀ q, polysWind (outer ++ holes) q = outerTurn cw * if r.op (rule.inside (segsWind CountBool.subj segs q))
        (rule.inside (segsWind CountBool.clip segs q)) then 1 else 0) ∧
      (∀ c ∈ outer, WindsOnce (outerTurn cw) c) ∧ (∀ c ∈ holes, WindsOnce (- outerTurn cw) c) ∧
      (outer ++ holes).Pairwise Nested ∧
      outerContours shapes =
        (outer.filter fun c => decide (LargeEnough minArea (x.clean c).1)).map (fun c => (x.clean c).1) ∧
      (shapes = [] ∨ (holeContours shapes).Perm
        ((holes.filter fun c => decide (LargeEnough minArea (x.clean c).1)).map fun c => (x.clean c).1)) ∧
      ∀ sh ∈ shapes, sh ≠ [] := by
  obtain ⟨segs, g, V, q1, q2, q3, q4⟩ := runOk_oneShot ha.tree ha.scan ha.sortE hf hl
  have e := congrArg (List.map fun t : Pt × Pt × Fill => (t.1, t.2.1)) q3
  rw [List.map_map, List.map_map] at e
  have e' : (links.map fun l => (l.a, l.b)) = g.links.map fun l => (l.a, l.b) := e.symm
  have ev : List.replicate g.links.length false = g.links.map fun l => (fun _ => false) l.fill := by
    rw [List.map_const']
  have hkeep : (g.links.filter fun l => !(fun _ : Fill => false) l.fill) = g.links := List.filter_eq_self.2 (by simp)
  obtain ⟨outer, holes, c1, c2, c3, c4, c5, c6⟩ := q4.contours (F := fun _ => false) ev cw (by
    rw [ev]
    refine atMostTwo_links (F := fun _ => false) h2 ?_
    rw [hkeep]; exact e')
  rw [hkeep, ← e'] at c1
  unfold overlayCustom at h
  rw [hl, Option.bind_some, q2, Option.bind_some] at h
  obtain ⟨d1, d2, d3⟩ := c6 x minArea shapes h
  exact ⟨segs, outer, holes, q1, c1, c2, c3, c4, c5, d1, d2, d3⟩

open Classical in
/-- C24 (prebuilt graph). -/
theorem C24_area_filter_graph (k : Config) (x : Externals) (ha : Assumed k x) (r : OverlayRule) (rule : FillRule)
    (cw : Bool) (minArea : Nat) (subj clip : List (List Pt)) (hf : FragFor k subj clip) (g : Graph)
    (hg : intoGraph k x rule (overlaySegments subj clip) = some g)
    (h2 : AtMostTwoRight ((g.links.filter fun l => !maskFilter r l.fill).map fun l => (l.a, l.b)))
    (all shapes : List (List (List Pt))) (h0 : extractShapesCustom x g r cw 0 = some all)
    (h : extractShapesCustom x g r cw minArea = some shapes) :
    outerContours shapes = (outerContours all).filter (fun c => decide (LargeEnough minArea c)) ∧
    (shapes = [] ∨ (holeContours shapes).Perm ((holeContours all).filter fun c => decide (LargeEnough minArea c))) ∧
    ∀ sh ∈ shapes, sh ≠ [] := by
  unfold intoGraph at hg
  obtain ⟨links, h1, hg⟩ := Option.bind_eq_some_iff.1 hg
  obtain ⟨segs, g', V, -, q2, -, q4⟩ := runOk_graph ha.tree ha.scan r ha.sortE hf h1
  rw [hg] at q2
  obtain rfl := Option.some.inj q2
  refine q4.area_filter cw (twoRight_links fun p => ?_) h0 h
  have := h2 p
  rwa [List.filter_map, List.length_map] at this

/-- C41 and C42 with a positive area limit: if no point is the left end of more than two edges of the result, every
returned shape is an outer contour winding at most once in the requested direction followed by holes winding at most
once in the opposite one, and the contours are nested or disjoint. -/
theorem C41_overlay_limit (k : Config) (x : Externals) (ha : Assumed k x) (r : OverlayRule) (rule : FillRule)
    (cw : Bool) (minArea : Nat) (subj clip : List (List Pt)) (hf : FragFor k subj clip) (links : List Link)
    (hl : buildBoolean (isIncluded r) rule k.st k.sr k.tree k.scan k.fuel (overlaySegments subj clip) = some links)
    (h2 : AtMostTwoRight (links.map fun l => (l.a, l.b))) (shapes : List (List (List Pt)))
    (h : overlayCustom k x r rule cw minArea (overlaySegments subj clip) = some shapes) :
    (∀ sh ∈ shapes, OrientedShape cw sh) ∧ shapes.flatten.Pairwise Nested := by
  obtain ⟨segs, g, V, vis, -, q1, q2, q3⟩ := oneShot_state ha hf hl h2
  rw [q3] at h
  exact q1.filtered_oriented cw ha.clean q2 h

/-- A square with a hole and a small square, limit 1000: the small square and the hole are dropped. -/
example : overlayCustom exConfig exRaw .subject .nonZero false 1000
      (overlaySegments [[⟨0, 0⟩, ⟨100, 0⟩, ⟨100, 100⟩, ⟨0, 100⟩], [⟨10, 10⟩, ⟨10, 20⟩, ⟨20, 20⟩, ⟨20, 10⟩],
        [⟨200, 0⟩, ⟨210, 0⟩, ⟨210, 10⟩, ⟨200, 10⟩]] []) = some [[[⟨0, 100⟩, ⟨0, 0⟩, ⟨100, 0⟩, ⟨100, 100⟩]]] ∧
    overlayCustom exConfig exRaw .subject .nonZero false 0
      (overlaySegments [[⟨0, 0⟩, ⟨100, 0⟩, ⟨100, 100⟩, ⟨0, 100⟩], [⟨10, 10⟩, ⟨10, 20⟩, ⟨20, 20⟩, ⟨20, 10⟩],
        [⟨200, 0⟩, ⟨210, 0⟩, ⟨210, 10⟩, ⟨200, 10⟩]] []) =
      some [[[⟨0, 100⟩, ⟨0, 0⟩, ⟨100, 0⟩, ⟨100, 100⟩], [⟨10, 10⟩, ⟨10, 20⟩, ⟨20, 20⟩, ⟨20, 10⟩]],
        [[⟨200, 10⟩, ⟨200, 0⟩, ⟨210, 0⟩, ⟨210, 10⟩]]] := by
  decide +kernel

theorem atMostTwo_of_mem {edges : List (Pt × Pt)}
    (h : ∀ e ∈ edges, (edges.filter fun f => decide (f.1 = e.1)).length ≤ 2) : AtMostTwoRight edges := by
  intro p
  by_cases hp : ∃ e ∈ edges, e.1 = p
  · obtain ⟨e, he, rfl⟩ := hp
    exact h e he
  · have : (edges.filter fun f => decide (f.1 = p)) = [] := by
      rw [List.filter_eq_nil_iff]
      intro e he
      rw [decide_eq_true_iff]
      exact fun h => hp ⟨e, he, h⟩
    rw [this]; simp

/-- Its edges meet the hypothesis. -/
example : AtMostTwoRight (((buildBoolean (isIncluded .subject) .nonZero exConfig.st exConfig.sr exConfig.tree exConfig.scan
      exConfig.fuel (overlaySegments [[⟨0, 0⟩, ⟨100, 0⟩, ⟨100, 100⟩, ⟨0, 100⟩], [⟨10, 10⟩, ⟨10, 20⟩, ⟨20, 20⟩, ⟨20, 10⟩],
        [⟨200, 0⟩, ⟨210, 0⟩, ⟨210, 10⟩, ⟨200, 10⟩]] [])).getD []).map fun l => (l.a, l.b)) :=
  atMostTwo_of_mem (by decide +kernel)

end IOverlay
