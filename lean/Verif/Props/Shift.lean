/-
C65: moving the input moves the result. All rounding is relative to the edges, so no whole-numbered translation changes
anything else.
-/
import Verif.Shift
import Verif.Drift
import Verif.Props.Chain
import Verif.Props.SliceShapes
import Verif.DriftString

namespace IOverlay
variable {C : Type}

/-- A point of the rational plane moved by a whole-numbered vector. -/
def QPt.shift (q : QPt) (v : Pt) : QPt := ⟨q.x + v.x, q.y + v.y⟩

/-- Contours moved by a vector. -/
def moved (v : Pt) (cs : List (List Pt)) : List (List Pt) := cs.map fun c => c.map fun p => p.shift v

variable (v : Pt)

theorem edgeWind_shift (a b : Pt) (q : QPt) : edgeWind (a.shift v) (b.shift v) (q.shift v) = edgeWind a b q := by
  have hx : ∀ a : Pt, (((a.shift v).x : Int) : ℚ) ≤ (q.shift v).x ↔ (a.x : ℚ) ≤ q.x := by
    intro a; simp [QPt.shift]
  have hx' : ∀ a : Pt, (q.shift v).x < (((a.shift v).x : Int) : ℚ) ↔ q.x < (a.x : ℚ) := by
    intro a; simp [QPt.shift]
  have hl : ∀ a b : Pt, aboveLine (a.shift v) (b.shift v) (q.shift v) ↔ aboveLine a b q := by
    intro a b
    unfold aboveLine
    simp [QPt.shift]
  unfold edgeWind
  have c1 : ∀ a b : Pt, (((a.shift v).x : ℚ) ≤ (q.shift v).x ∧ (q.shift v).x < (b.shift v).x ∧
      aboveLine (a.shift v) (b.shift v) (q.shift v)) ↔ ((a.x : ℚ) ≤ q.x ∧ q.x < b.x ∧ aboveLine a b q) :=
    fun a b => and_congr (hx a) (and_congr (hx' b) (hl a b))
  by_cases h1 : (a.x : ℚ) ≤ q.x ∧ q.x < b.x ∧ aboveLine a b q
  · rw [if_pos h1, if_pos ((c1 a b).2 h1)]
  · rw [if_neg h1, if_neg (fun h => h1 ((c1 a b).1 h))]
    by_cases h2 : (b.x : ℚ) ≤ q.x ∧ q.x < a.x ∧ aboveLine b a q
    · rw [if_pos h2, if_pos ((c1 b a).2 h2)]
    · rw [if_neg h2, if_neg (fun h => h2 ((c1 b a).1 h))]

theorem segsWind_shift (φ : C → Int) (l : List (Seg C)) (q : QPt) :
    segsWind φ (l.map (·.shift v)) (q.shift v) = segsWind φ l q := by
  induction l with
  | nil => rfl
  | cons s l ih => rw [List.map_cons, segsWind_cons, segsWind_cons, ih, seg_shift_a, seg_shift_b, seg_shift_c, edgeWind_shift]

/-! ### the noded edges -/

theorem list_pass (v : Pt) [WindingCount C] {tree tree' : TreeOracle C} {n n' : Nat} {sr : SnapRadius}
    {segs r r' : List (Seg C)} (h : splitLoop .list tree n .list sr (mergeIfNeeded (sortSegs segs)) = some r)
    (h' : splitLoop .list tree' n' .list sr (mergeIfNeeded (sortSegs (segs.map (·.shift v)))) = some r') :
    r' = r.map (·.shift v) := by
  rw [sortSegs_shift, mergeIfNeeded_shift] at h'
  have e := splitLoop_shift v tree tree' (max n n') sr (mergeIfNeeded (sortSegs segs))
  have e1 := splitLoop_mono _ _ _ _ _ _ _ h' (max n n') (le_max_right _ _)
  have e2 := splitLoop_mono _ _ _ _ _ _ _ h (max n n') (le_max_left _ _)
  have e3 := splitLoop_shift v tree tree (max n n') sr (mergeIfNeeded (sortSegs segs))
  have e4 := splitLoop_shift v tree' tree (max n n') sr (mergeIfNeeded (sortSegs segs))
  rw [e2] at e4
  rw [e1] at e4
  simpa using e4

/-- C65 (noding): if splitting ends both for the given contours and for the moved ones, whatever strategies and segment trees
are used, the edges of the second run are those of the first, moved. -/
theorem C65_noded {st st' : Strategy} {sr : SnapRadius} {tree tree' : TreeOracle CountBool} (ht : tree.Ok) (ht' : tree'.Ok)
    {fuel fuel' : Nat} {subj clip : List (List Pt)} (hf : FragOk st sr (overlaySegments subj clip : List (Seg CountBool)))
    (hf' : FragOk st' sr (overlaySegments (moved v subj) (moved v clip) : List (Seg CountBool))) {r r' : List (Seg CountBool)}
    (h : nodedEdges st sr tree fuel (overlaySegments subj clip) = some r)
    (h' : nodedEdges st' sr tree' fuel' (overlaySegments (moved v subj) (moved v clip)) = some r') :
    r' = r.map fun s => ⟨s.a.shift v, s.b.shift v, s.c⟩ := by
  have e : (overlaySegments (moved v subj) (moved v clip) : List (Seg CountBool)) = _ := overlaySegments_shift v subj clip
  unfold nodedEdges at h h'
  split at h
  · rename_i h0
    rw [List.isEmpty_iff] at h0
    rw [e, h0] at h'
    obtain rfl := Option.some.inj h
    simpa [eq_comm] using h'
  · rename_i h0
    have h0' : (overlaySegments (moved v subj) (moved v clip) : List (Seg CountBool)).isEmpty = false := by
      rw [e]; simpa using h0
    rw [h0'] at h'
    have l := noded_to_list ht hf h
    have l' := noded_to_list ht' hf' (by simpa using h')
    rw [e] at l'
    exact list_pass v l l'

/-- C65 (noding): splitting ends for the moved contours iff it ends for the given ones. -/
theorem C65_ends {st st' : Strategy} {sr : SnapRadius} {tree tree' : TreeOracle CountBool} (ht : tree.Ok) (ht' : tree'.Ok)
    {subj clip : List (List Pt)} (hf : FragOk st sr (overlaySegments subj clip : List (Seg CountBool)))
    (hf' : FragOk st' sr (overlaySegments (moved v subj) (moved v clip) : List (Seg CountBool))) :
    (∃ fuel r, splitSegments st sr tree fuel (overlaySegments subj clip) = some r) ↔
    ∃ fuel r, splitSegments st' sr tree' fuel (overlaySegments (moved v subj) (moved v clip)) = some r := by
  have e : (overlaySegments (moved v subj) (moved v clip) : List (Seg CountBool)) = _ := overlaySegments_shift v subj clip
  have el : ∀ n, splitSegments .list sr tree' n (overlaySegments (moved v subj) (moved v clip)) =
      (splitSegments .list sr tree n (overlaySegments subj clip)).map (·.map (·.shift v)) := by
    intro n
    unfold splitSegments
    simp only [isListSplit_list, if_true]
    rw [e, sortSegs_shift, mergeIfNeeded_shift, splitLoop_shift v tree' tree]
  constructor
  · rintro ⟨n, r, h⟩
    obtain ⟨m, hm⟩ := (C38_strategies_agree_partial st .list sr tree ht subj clip hf (FragOk.list _ _) r).1 ⟨n, h⟩
    have h1 := el m
    rw [hm, Option.map_some] at h1
    obtain ⟨m', hm'⟩ := (C38_strategies_agree_partial .list st' sr tree' ht' _ _ (FragOk.list _ _) hf' _).1 ⟨m, h1⟩
    exact ⟨m', _, hm'⟩
  · rintro ⟨n, r, h⟩
    obtain ⟨m, hm⟩ := (C38_strategies_agree_partial st' .list sr tree' ht' _ _ hf' (FragOk.list _ _) r).1 ⟨n, h⟩
    have h1 := el m
    rw [hm] at h1
    rcases hs : splitSegments .list sr tree m (overlaySegments subj clip) with _ | r0
    · rw [hs] at h1; simp at h1
    · obtain ⟨m', hm'⟩ := (C38_strategies_agree_partial .list st sr tree ht subj clip (FragOk.list _ _) hf r0).1 ⟨m, hs⟩
      exact ⟨m', _, hm'⟩

/-! ### results -/

/-- C65 (boolean overlays): a result for contours moved by `v`, computed with any strategy but the same precision, winds around
the moved points as a result for the given contours winds around the points. -/
theorem C65_overlay {k k' : Config} {x x' : Externals} (ha : Assumed k x) (ha' : Assumed k' x') (hsr : k'.sr = k.sr)
    {r : OverlayRule} {rule : FillRule} {cw : Bool} {subj clip : List (List Pt)} (hf : FragFor k subj clip)
    (hf' : FragFor k' (moved v subj) (moved v clip)) {shapes shapes' : List (List (List Pt))}
    (h : IsResult k x r rule cw 0 subj clip shapes)
    (h' : IsResult k' x' r rule cw 0 (moved v subj) (moved v clip) shapes') (q : QPt) :
    polysWind shapes'.flatten (q.shift v) = polysWind shapes.flatten q := by
  obtain ⟨s, h1, h2⟩ := h.winding ha hf
  obtain ⟨s', h1', h2'⟩ := h'.winding ha' hf'
  rw [hsr] at h1'
  have hf2 : FragOk k'.st k.sr (overlaySegments (moved v subj) (moved v clip) : List (Seg CountBool)) := hsr ▸ hf'
  have e : s' = s.map (·.shift v) := C65_noded v ha.tree ha'.tree hf hf2 h1 h1'
  rw [h2, h2', e, segsWind_shift, segsWind_shift]

/-! ### lines -/

theorem addStringLine_shift (a b : Pt) : addStringLine (a.shift v) (b.shift v) = (addStringLine a b).map (·.shift v) := by
  unfold addStringLine
  simp only [shift_lt]
  split_ifs <;> rfl

theorem stringLoop_shift (l : List Pt) : ∀ a, stringLoop (a.shift v) (l.map (·.shift v)) = (stringLoop a l).map (·.shift v) := by
  induction l with
  | nil => intro a; rfl
  | cons b l ih => intro a; rw [List.map_cons, stringLoop, stringLoop, addStringLine_shift, ih, List.map_append]

theorem stringSegments_shift (shape paths contours : List (List Pt)) :
    stringSegments (moved v shape) (moved v paths) (moved v contours) =
      (stringSegments shape paths contours).map (·.shift v) := by
  have h1 : ∀ l : List Pt, addStringPath (l.map (·.shift v)) = (addStringPath l).map (·.shift v) := by
    intro l
    unfold addStringPath
    rw [List.length_map]
    split
    · rfl
    · rw [List.head?_map, ← List.map_drop]
      cases l.head? with
      | none => rfl
      | some a => exact stringLoop_shift v _ a
  have h2 : ∀ l : List Pt, addStringContour (l.map (·.shift v)) = (addStringContour l).map (·.shift v) := by
    intro l
    unfold addStringContour
    rw [List.length_map]
    split
    · rfl
    · rw [List.getLast?_map]
      cases l.getLast? with
      | none => rfl
      | some a => exact stringLoop_shift v _ a
  unfold stringSegments moved appendContour
  simp only [List.map_append, List.flatMap_map, List.map_flatMap, appendPath_shift, h1, h2]

/-- C65 (lines, noding). -/
theorem C65_noded_lines {st st' : Strategy} {sr : SnapRadius} {tree tree' : TreeOracle CountStr} (ht : tree.Ok)
    (ht' : tree'.Ok) {fuel fuel' : Nat} {shape paths contours : List (List Pt)}
    (hf : FragOk st sr (stringSegments shape paths contours))
    (hf' : FragOk st' sr (stringSegments (moved v shape) (moved v paths) (moved v contours))) {r r' : List (Seg CountStr)}
    (h : nodedEdges st sr tree fuel (stringSegments shape paths contours) = some r)
    (hn : st = .list ∨ 2 < r.length)
    (h' : nodedEdges st' sr tree' fuel' (stringSegments (moved v shape) (moved v paths) (moved v contours)) = some r')
    (hn' : st' = .list ∨ 2 < r'.length) :
    r' = r.map fun s => ⟨s.a.shift v, s.b.shift v, s.c⟩ := by
  have e := stringSegments_shift v shape paths contours
  unfold nodedEdges at h h'
  split at h
  · rename_i h0
    rw [List.isEmpty_iff] at h0
    rw [e, h0] at h'
    obtain rfl := Option.some.inj h
    simpa [eq_comm] using h'
  · rename_i h0
    have h0' : (stringSegments (moved v shape) (moved v paths) (moved v contours)).isEmpty = false := by
      rw [e]; simpa using h0
    rw [h0'] at h'
    have l := noded_to_list_many ht (stringSegments_lt shape paths contours) hf hn h
    have l' := noded_to_list_many ht' (stringSegments_lt _ _ _) hf' hn' (by simpa using h')
    rw [e] at l'
    exact list_pass v l l'

theorem clip_noded {clip : ClipRule} {rule : FillRule} {st : Strategy} {sr : SnapRadius} {tree : TreeOracle CountStr}
    {sc : ScanOracle CountStr} {fuel : Nat} {sortE : List End → List End} {segs : List (Seg CountStr)} {out : List (List Pt)}
    (h : clipLines clip rule st sr tree sc fuel sortE segs = some out) : ∃ r, nodedEdges st sr tree fuel segs = some r := by
  unfold clipLines buildString at h
  unfold nodedEdges
  split
  · exact ⟨_, rfl⟩
  · rename_i he
    rw [if_neg he] at h
    rcases e : splitSegments st sr tree fuel segs with _ | r
    · rw [e] at h; simp at h
    · exact ⟨r, rfl⟩

theorem leftOf_shift (a b : Pt) (m : QPt) (δ : ℚ) : leftOf (a.shift v) (b.shift v) (m.shift v) δ = (leftOf a b m δ).shift v := by
  unfold leftOf
  simp only [shift_x, add_left_inj]
  split <;> simp only [QPt.shift, QPt.mk.injEq, true_and, and_true] <;> ring

theorem rightOf_shift (a b : Pt) (m : QPt) (δ : ℚ) :
    rightOf (a.shift v) (b.shift v) (m.shift v) δ = (rightOf a b m δ).shift v := by
  unfold rightOf
  simp only [shift_x, add_left_inj]
  split <;> simp only [QPt.shift, QPt.mk.injEq, true_and, and_true] <;> ring

theorem pieces_shift (s : Seg CountStr) : (s.shift v).pieces = s.pieces.map fun e => (e.1.shift v, e.2.shift v) := by
  unfold Seg.pieces
  obtain ⟨a, b, ⟨w, bk, fw⟩⟩ := s
  cases bk <;> cases fw <;> rfl

/-- C65 (clipping): the lines returned for a moved shape and moved lines consist of the pieces of the lines returned for the
given ones, moved. -/
theorem C65_clip (clip : ClipRule) (rule : FillRule) {st st' : Strategy} {sr : SnapRadius} {tree tree' : TreeOracle CountStr}
    (ht : tree.Ok) (ht' : tree'.Ok) {sc sc' : ScanOracle CountStr} (hsc : sc.Ok) (hsc' : sc'.Ok) {fuel fuel' : Nat}
    {sortE sortE' : List End → List End} (hE : EndSort sortE) (hE' : EndSort sortE') {shape paths contours : List (List Pt)}
    (hf : FragOk st sr (stringSegments shape paths contours))
    (hf' : FragOk st' sr (stringSegments (moved v shape) (moved v paths) (moved v contours)))
    (hn : st = .list ∨ ∀ r, nodedEdges st sr tree fuel (stringSegments shape paths contours) = some r → 2 < r.length)
    (hn' : st' = .list ∨ ∀ r, nodedEdges st' sr tree' fuel'
      (stringSegments (moved v shape) (moved v paths) (moved v contours)) = some r → 2 < r.length)
    {out out' : List (List Pt)}
    (h : clipLines clip rule st sr tree sc fuel sortE (stringSegments shape paths contours) = some out)
    (h' : clipLines clip rule st' sr tree' sc' fuel' sortE'
      (stringSegments (moved v shape) (moved v paths) (moved v contours)) = some out') :
    (out'.flatMap fun p => p.zip p.tail).Perm
      ((out.flatMap fun p => p.zip p.tail).map fun e => (e.1.shift v, e.2.shift v)) := by
  obtain ⟨r, hr⟩ := clip_noded h
  obtain ⟨r', hr'⟩ := clip_noded h'
  have n1 : st = .list ∨ 2 < r.length := hn.imp_right fun h => h r hr
  have n2 : st' = .list ∨ 2 < r'.length := hn'.imp_right fun h => h r' hr'
  have e : r' = r.map (·.shift v) := C65_noded_lines v ht ht' hf hf' hr n1 hr' n2
  obtain ⟨o, K, a1, -, a3, a4⟩ := C29_clip clip rule st sr tree ht sc hsc fuel sortE hE shape paths contours hf r hr n1
  obtain ⟨o', K', b1, -, b3, b4⟩ := C29_clip clip rule st' sr tree' ht' sc' hsc' fuel' sortE' hE' _ _ _ hf' r' hr' n2
  rw [h] at a1
  rw [h'] at b1
  obtain rfl := Option.some.inj a1
  obtain rfl := Option.some.inj b1
  refine b3.trans (List.Perm.trans ?_ (a3.symm.map _))
  have hK : ∀ s ∈ r, s.pieces ≠ [] → K' (s.shift v) = K s := by
    intro s hs hne
    have hL : s.c.back = true ∨ s.c.fwd = true := by
      by_contra hc
      push Not at hc
      exact hne (by unfold Seg.pieces; simp [hc.1, hc.2])
    have hm : inSeg ⟨s.a.x + 1 / 2 * ((s.b.x : ℚ) - s.a.x), s.a.y + 1 / 2 * ((s.b.y : ℚ) - s.a.y)⟩ s.a s.b :=
      ⟨1 / 2, by norm_num, by norm_num, rfl, rfl⟩
    generalize (⟨s.a.x + 1 / 2 * ((s.b.x : ℚ) - s.a.x), s.a.y + 1 / 2 * ((s.b.y : ℚ) - s.a.y)⟩ : QPt) = m at hm
    have hm' : inSeg (m.shift v) (s.shift v).a (s.shift v).b := by
      obtain ⟨t, t0, t1, tx, ty⟩ := hm
      refine ⟨t, t0, t1, ?_, ?_⟩ <;> simp only [QPt.shift, seg_shift_a, seg_shift_b, shift_x, shift_y, Int.cast_add, tx, ty] <;>
        ring
    obtain ⟨ε, e0, he⟩ := a4 s hs hL m hm
    obtain ⟨ε', e0', he'⟩ := b4 (s.shift v) (by rw [e]; exact List.mem_map_of_mem hs) hL _ hm'
    have d0 : 0 < min ε ε' / 2 := by have := lt_min e0 e0'; linarith
    have d1 : min ε ε' / 2 < ε := by have := lt_min e0 e0'; have := min_le_left ε ε'; linarith
    have d2 : min ε ε' / 2 < ε' := by have := lt_min e0 e0'; have := min_le_right ε ε'; linarith
    have k1 := he _ d0 d1
    have k2 := he' _ d0 d2
    rw [e, seg_shift_a, seg_shift_b, leftOf_shift, rightOf_shift, segsWind_shift, segsWind_shift, ← k1] at k2
    rw [Bool.eq_iff_iff, k2]
  rw [e]
  have : ∀ l : List (Seg CountStr), (∀ s ∈ l, s ∈ r) →
      ((l.map (·.shift v)).filter K').flatMap Seg.pieces =
      ((l.filter K).flatMap Seg.pieces).map fun e => (e.1.shift v, e.2.shift v) := by
    intro l hl
    induction l with
    | nil => rfl
    | cons s l ih =>
      have ih := ih fun t ht => hl t (List.mem_cons_of_mem _ ht)
      by_cases hp : s.pieces = []
      · have hp' : (s.shift v).pieces = [] := by rw [pieces_shift, hp]; rfl
        rw [List.map_cons, List.filter_cons, List.filter_cons]
        split_ifs <;> simp [hp, hp', ih]
      · have hk := hK s (hl s (by simp)) hp
        rw [List.map_cons, List.filter_cons, List.filter_cons, hk]
        split_ifs
        · rw [List.flatMap_cons, List.flatMap_cons, List.map_append, ih, pieces_shift]
        · exact ih
  rw [this r fun s hs => hs]

/-- C65 (slicing): the pieces of a moved shape cut by moved lines wind around the moved points as the pieces of the given shape
wind around the points. -/
theorem C65_slice (x x' : Externals) (order order' : List Pt → Bool) (ho : OrderOk order) (ho' : OrderOk order')
    (rule : FillRule) {st st' : Strategy} {sr : SnapRadius} {tree tree' : TreeOracle CountStr} (ht : tree.Ok) (ht' : tree'.Ok)
    {sc sc' : ScanOracle CountStr} (hsc : sc.Ok) (hsc' : sc'.Ok) {fuel fuel' : Nat} (hE : EndSort x.sortE)
    (hE' : EndSort x'.sortE) {shape paths contours : List (List Pt)} (hf : FragOk st sr (stringSegments shape paths contours))
    (hf' : FragOk st' sr (stringSegments (moved v shape) (moved v paths) (moved v contours)))
    (hn : st = .list ∨ ∀ r, nodedEdges st sr tree fuel (stringSegments shape paths contours) = some r → 2 < r.length)
    (hn' : st' = .list ∨ ∀ r, nodedEdges st' sr tree' fuel'
      (stringSegments (moved v shape) (moved v paths) (moved v contours)) = some r → 2 < r.length)
    {shapes shapes' : List (List (List Pt))}
    (h : sliceBy x order rule st sr tree sc fuel shape paths contours = some shapes)
    (h' : sliceBy x' order' rule st' sr tree' sc' fuel' (moved v shape) (moved v paths) (moved v contours) = some shapes')
    (q : QPt) : polysWind shapes'.flatten (q.shift v) = polysWind shapes.flatten q := by
  have hrun : ∀ {x : Externals} {order : List Pt → Bool} {st : Strategy} {tree : TreeOracle CountStr}
      {sc : ScanOracle CountStr} {fuel : Nat} {shape paths contours : List (List Pt)} {shapes : List (List (List Pt))},
      sliceBy x order rule st sr tree sc fuel shape paths contours = some shapes →
      ∃ r, nodedEdges st sr tree fuel (stringSegments shape paths contours) = some r := by
    intro x order st tree sc fuel shape paths contours shapes h
    unfold sliceBy stringGraph buildString at h
    unfold nodedEdges
    split
    · exact ⟨_, rfl⟩
    · rename_i he
      rw [if_neg he] at h
      rcases e : splitSegments st sr tree fuel (stringSegments shape paths contours) with _ | r
      · rw [e] at h; simp at h
      · exact ⟨r, rfl⟩
  obtain ⟨r, hr⟩ := hrun h
  obtain ⟨r', hr'⟩ := hrun h'
  have n1 : st = .list ∨ 2 < r.length := hn.imp_right fun h => h r hr
  have n2 : st' = .list ∨ 2 < r'.length := hn'.imp_right fun h => h r' hr'
  have e : r' = r.map (·.shift v) := C65_noded_lines v ht ht' hf hf' hr n1 hr' n2
  obtain ⟨-, -, w, -⟩ := C58_slice_shapes x order ho rule st sr tree ht sc hsc fuel hE shape paths contours hf r hr n1 shapes h
  obtain ⟨-, -, w', -⟩ := C58_slice_shapes x' order' ho' rule st' sr tree' ht' sc' hsc' fuel' hE' _ _ _ hf' r' hr' n2 shapes' h'
  rw [w, w', e, segsWind_shift]

/-! ### examples -/

/-- Two triangles whose crossings are rounded, and the same ones moved by (1001, -77). -/
example :
    let subj : List (List Pt) := [[⟨0, 0⟩, ⟨71, 0⟩, ⟨71, 50⟩]]
    let clip : List (List Pt) := [[⟨20, -30⟩, ⟨51, -30⟩, ⟨33, 40⟩]]
    let v : Pt := ⟨1001, -77⟩
    let out : List (List Pt) := [[⟨29, 21⟩, ⟨25, 0⟩, ⟨43, 0⟩, ⟨37, 26⟩]]
    moved v subj = [[⟨1001, -77⟩, ⟨1072, -77⟩, ⟨1072, -27⟩]] ∧
    IsResult exConfig exRaw .intersect .nonZero false 0 subj clip [out] ∧
    IsResult exConfig exRaw .intersect .nonZero false 0 (moved v subj) (moved v clip) [moved v out] := by
  intro subj clip v out
  exact ⟨by decide, Or.inl (by decide +kernel), Or.inl (by decide +kernel)⟩

/-- The same for lines in a shape. -/
example :
    let shape : List (List Pt) := [[⟨0, 0⟩, ⟨71, 0⟩, ⟨71, 50⟩]]
    let lines : List (List Pt) := [[⟨20, -30⟩, ⟨33, 40⟩], [⟨40, 20⟩, ⟨60, 10⟩, ⟨90, 41⟩]]
    let v : Pt := ⟨1001, -77⟩
    let out : List (List Pt) := [[⟨25, 0⟩, ⟨29, 21⟩], [⟨40, 20⟩, ⟨60, 10⟩, ⟨71, 21⟩]]
    clipLines ⟨false, true⟩ .nonZero .list ⟨0, 1⟩ (bruteTree CountStr) listScanOracle 2 exRaw.sortE
      (stringSegments shape lines []) = some out ∧
    clipLines ⟨false, true⟩ .nonZero .list ⟨0, 1⟩ (bruteTree CountStr) listScanOracle 2 exRaw.sortE
      (stringSegments (moved v shape) (moved v lines) (moved v [])) = some (moved v out) := by
  intro shape lines v out
  exact ⟨by decide +kernel, by decide +kernel⟩

/-- And for slicing. -/
example :
    let shape : List (List Pt) := [[⟨0, 0⟩, ⟨71, 0⟩, ⟨71, 50⟩]]
    let lines : List (List Pt) := [[⟨20, -30⟩, ⟨33, 40⟩], [⟨40, 20⟩, ⟨60, 10⟩, ⟨90, 41⟩]]
    let v : Pt := ⟨1001, -77⟩
    let out : List (List (List Pt)) := [[[⟨0, 0⟩, ⟨25, 0⟩, ⟨29, 21⟩]], [[⟨71, 0⟩, ⟨71, 21⟩, ⟨71, 50⟩, ⟨29, 21⟩, ⟨25, 0⟩]]]
    sliceBy exRaw exOrder .nonZero .list ⟨0, 1⟩ (bruteTree CountStr) listScanOracle 2 shape lines [] = some out ∧
    sliceBy exRaw exOrder .nonZero .list ⟨0, 1⟩ (bruteTree CountStr) listScanOracle 2 (moved v shape) (moved v lines)
      (moved v []) = some (out.map (moved v)) := by
  intro shape lines v out
  exact ⟨by decide +kernel, by decide +kernel⟩

end IOverlay
