/-
Attaching holes given by contours: the sweep gives every hole an outer contour with the same surroundings. C43, C66.
-/
import Verif.LeftBottom
import Verif.Props.Attach

namespace IOverlay

/-- The contour with a given index. -/
def PieceOf (outer holes : List (List Pt)) (c : CIdx) (Y : List Pt) : Prop :=
  if c.hole then holes[c.index]? = some Y else outer[c.index]? = some Y

/-- The edges looked up for the holes, in the order of the holes. -/
def lowEdges (holes : List (List Pt)) (k : Nat) : List IdSeg :=
  (holes.zipIdx k).filterMap fun h => (leftBottomSegment h.1).map fun v => (⟨v.1, v.2, ⟨true, h.2⟩⟩ : IdSeg)

theorem mapM_filterMap {α β : Type} {f : α → Option β} : ∀ {l : List α}, (∀ x ∈ l, ∃ y, f x = some y) →
    l.mapM f = some (l.filterMap f) := by
  intro l
  induction l with
  | nil => intro _; rfl
  | cons x l ih =>
    intro h
    obtain ⟨y, hy⟩ := h x (by simp)
    rw [List.mapM_cons, hy, ih fun x hx => h x (by simp [hx]), List.filterMap_cons, hy]
    rfl

theorem lowEdges_index : ∀ (holes : List (List Pt)) (k : Nat), (∀ H ∈ holes, ∃ v, leftBottomSegment H = some v) →
    ((lowEdges holes k).map (·.c.index)) = List.range' k holes.length := by
  intro holes
  induction holes with
  | nil => intro k _; rfl
  | cons H holes ih =>
    intro k h
    obtain ⟨v, hv⟩ := h H (by simp)
    have := ih (k + 1) fun x hx => h x (by simp [hx])
    unfold lowEdges at this ⊢
    rw [List.zipIdx_cons, List.filterMap_cons]
    simp only [hv, Option.map_some, List.map_cons, List.length_cons, List.range'_succ]
    rw [this]

theorem mem_lowEdges {holes : List (List Pt)} {s : IdSeg} : s ∈ lowEdges holes 0 ↔
    s.c.hole = true ∧ ∃ H, holes[s.c.index]? = some H ∧ leftBottomSegment H = some (s.a, s.b) := by
  unfold lowEdges
  rw [List.mem_filterMap]
  constructor
  · rintro ⟨⟨H, i⟩, h1, h2⟩
    rw [List.mem_zipIdx_iff_getElem?] at h1
    obtain ⟨v, hv, rfl⟩ := Option.map_eq_some_iff.1 h2
    exact ⟨rfl, H, h1, hv⟩
  · rintro ⟨h1, H, h2, h3⟩
    refine ⟨(H, s.c.index), by rw [List.mem_zipIdx_iff_getElem?]; exact h2, ?_⟩
    simp only [h3, Option.map_some, Option.some.injEq]
    obtain ⟨a, b, c, i⟩ := s
    simp only at h1
    rw [h1]

theorem edge_of_dart (e : Pt × Pt) : e = if (dartOf e).fwd then ((dartOf e).s.a, (dartOf e).s.b) else ((dartOf e).s.b, (dartOf e).s.a) := by
  unfold dartOf
  split <;> rfl

theorem dart_ext {e f : Pt × Pt} (ha : (dartOf e).s.a = (dartOf f).s.a) (hb : (dartOf e).s.b = (dartOf f).s.b)
    (hw : (dartOf e).fwd = (dartOf f).fwd) : e = f := by
  rw [edge_of_dart e, edge_of_dart f, ha, hb, hw]

/-- What attaching relies on: the contours run along planar edges, no directed edge belongs to two of them; the lower edge
at the leftmost vertex of a hole has the filled side below and comes before all its edges with the filled side above;
below an edge with the filled side below, the first edge of any contour has the filled side above and belongs to a contour
with the same surroundings (relation `S`). -/
structure Bindable (cw : Bool) (E : List Edge) (outer holes : List (List Pt)) (S : List Pt → List Pt → Prop) : Prop where
  mem : ∀ c ∈ outer ++ holes, ∀ e ∈ polyEdges c, (dartOf e).s ∈ E
  nodup : (outer ++ holes).Nodup
  owner : ∀ X ∈ outer ++ holes, ∀ Y ∈ outer ++ holes, ∀ e, e ∈ polyEdges X → e ∈ polyEdges Y → X = Y
  trans : ∀ H Y Z, Y ∈ outer ++ holes → S H Y → S Y Z → S H Z
  anchor : ∀ H ∈ holes, ∃ e ∈ polyEdges H, leftBottomSegment H = some ((dartOf e).s.a, (dartOf e).s.b) ∧
    (dartOf e).fwd = cw ∧ (dartOf e).s.a.x < (dartOf e).s.b.x ∧
      ∀ f ∈ polyEdges H, (dartOf f).fwd = (!cw) → Before (dartOf e).s (dartOf f).s
  surround : ∀ H ∈ outer ++ holes, ∀ e ∈ polyEdges H, (dartOf e).fwd = cw → (dartOf e).s.a.x < (dartOf e).s.b.x →
    ∃ Y ∈ outer ++ holes, ∃ f ∈ polyEdges Y, (dartOf f).fwd = (!cw) ∧
      FirstBelow (fun g => g ∈ E ∧ ∃ c ∈ outer ++ holes, ∃ k ∈ polyEdges c, (dartOf k).s = g) (dartOf e).s (dartOf f).s ∧
      S H Y

section
variable {cw : Bool} {E : List Edge} {outer holes : List (List Pt)} {S : List Pt → List Pt → Prop} (hp : Planar E)
  (h : Bindable cw E outer holes S)

theorem PieceOf.mem {c : CIdx} {Y : List Pt} (ho : PieceOf outer holes c Y) : Y ∈ outer ++ holes := by
  unfold PieceOf at ho
  split at ho
  · exact List.mem_append_right _ (List.mem_of_getElem? ho)
  · exact List.mem_append_left _ (List.mem_of_getElem? ho)

theorem PieceOf.exists {Y : List Pt} (hY : Y ∈ outer ++ holes) : ∃ c, PieceOf outer holes c Y := by
  rcases List.mem_append.1 hY with hY | hY
  · obtain ⟨i, hi⟩ := List.getElem?_of_mem hY
    exact ⟨⟨false, i⟩, hi⟩
  · obtain ⟨i, hi⟩ := List.getElem?_of_mem hY
    exact ⟨⟨true, i⟩, hi⟩

theorem PieceOf.val_unique {c : CIdx} {Y Y' : List Pt} (ho : PieceOf outer holes c Y) (ho' : PieceOf outer holes c Y') : Y = Y' := by
  unfold PieceOf at ho ho'
  split at ho
  · rename_i hc
    rw [if_pos hc, ho] at ho'
    exact Option.some.inj ho'
  · rename_i hc
    rw [if_neg hc, ho] at ho'
    exact Option.some.inj ho'

include h in
theorem PieceOf.unique {c c' : CIdx} {Y : List Pt} (ho : PieceOf outer holes c Y) (ho' : PieceOf outer holes c' Y) : c = c' := by
  have hn := h.nodup
  rw [List.nodup_append] at hn
  obtain ⟨n1, n2, n3⟩ := hn
  obtain ⟨b, i⟩ := c
  obtain ⟨b', i'⟩ := c'
  unfold PieceOf at ho ho'
  cases b <;> cases b' <;> simp only [Bool.false_eq_true, if_false, if_true] at ho ho'
  · rw [(List.getElem?_inj (List.getElem?_eq_some_iff.1 ho).1 n1).1 (ho.trans ho'.symm)]
  · exact absurd rfl (n3 _ (List.mem_of_getElem? ho) _ (List.mem_of_getElem? ho'))
  · exact absurd rfl (n3 _ (List.mem_of_getElem? ho') _ (List.mem_of_getElem? ho))
  · rw [(List.getElem?_inj (List.getElem?_eq_some_iff.1 ho).1 n2).1 (ho.trans ho'.symm)]

/-- The edges of a contour with the filled side above. -/
theorem mem_idSegments_iff {c : List Pt} {id : CIdx} {x0 x1 : Int} {m : IdSeg} :
    m ∈ idSegments id x0 x1 cw c ↔ id = m.c ∧ ∃ e ∈ polyEdges c, (dartOf e).fwd = (!cw) ∧ m.a = (dartOf e).s.a ∧
      m.b = (dartOf e).s.b ∧ m.a.x < m.b.x ∧ x0 < m.b.x ∧ m.a.x ≤ x1 := by
  have he : ∀ u v : Pt, (u, v) ∈ polyEdges (if cw then c else c.reverse) ↔ (if cw then (u, v) else (v, u)) ∈ polyEdges c := by
    intro u v
    cases cw
    · simp only [Bool.false_eq_true, if_false]; exact mem_polyEdges_reverse c u v
    · simp
  have hd : ∀ u v : Pt, u.x < v.x → dartOf (if cw then (v, u) else (u, v)) = ⟨⟨u, v, (u, v)⟩, !cw⟩ := by
    intro u v hx
    have l : u < v := Or.inl hx
    cases cw
    · simp only [Bool.false_eq_true, if_false]; unfold dartOf; rw [if_pos l]; rfl
    · simp only [if_true]; unfold dartOf; rw [if_neg (Pt.lt_asymm l)]; rfl
  unfold idSegments
  rw [List.mem_filterMap]
  constructor
  · rintro ⟨⟨u, v⟩, h1, h2⟩
    split at h2
    · rename_i hx
      dsimp only at hx
      obtain rfl := Option.some.inj h2
      refine ⟨rfl, _, (he u v).1 h1, ?_⟩
      have := hd v u hx.1
      rw [this]
      exact ⟨rfl, rfl, rfl, hx⟩
    · simp at h2
  · rintro ⟨rfl, e, h1, h2, h3, h4, h5⟩
    refine ⟨(m.b, m.a), (he _ _).2 ?_, ?_⟩
    · have : (if cw then (m.b, m.a) else (m.a, m.b)) = e := by
        rw [edge_of_dart e, h2, h3, h4]
        cases cw <;> rfl
      rw [this]; exact h1
    · dsimp only
      rw [if_pos h5]

theorem mem_floor_iff {x0 x1 : Int} {m : IdSeg} :
    m ∈ floorSegments (outer.map fun c => [c]) holes x0 x1 cw ↔
      ∃ Y, PieceOf outer holes m.c Y ∧ ∃ e ∈ polyEdges Y, (dartOf e).fwd = (!cw) ∧ m.a = (dartOf e).s.a ∧
        m.b = (dartOf e).s.b ∧ m.a.x < m.b.x ∧ x0 < m.b.x ∧ m.a.x ≤ x1 := by
  unfold floorSegments
  rw [List.mem_append, List.mem_flatMap, List.mem_flatMap]
  constructor
  · rintro (⟨⟨c, i⟩, hc, hm⟩ | ⟨⟨c, i⟩, hc, hm⟩)
    · rw [List.mem_zipIdx_iff_getElem?, List.getElem?_map] at hc
      obtain ⟨Y, hY, rfl⟩ := Option.map_eq_some_iff.1 hc
      obtain ⟨k1, k2⟩ := mem_idSegments_iff.1 hm
      exact ⟨Y, by rw [← k1]; exact hY, k2⟩
    · rw [List.mem_zipIdx_iff_getElem?] at hc
      obtain ⟨k1, k2⟩ := mem_idSegments_iff.1 hm
      exact ⟨c, by rw [← k1]; exact hc, k2⟩
  · rintro ⟨Y, ho, hd⟩
    have hm := mem_idSegments_iff.2 ⟨rfl, hd⟩
    generalize hcc : m.c = c at ho hm
    obtain ⟨b, i⟩ := c
    cases b
    · left
      refine ⟨([Y], i), ?_, by simpa using hm⟩
      rw [List.mem_zipIdx_iff_getElem?, List.getElem?_map]
      have : outer[i]? = some Y := ho
      rw [this]; rfl
    · right
      refine ⟨(Y, i), ?_, by simpa using hm⟩
      rw [List.mem_zipIdx_iff_getElem?]
      exact ho

include hp h

theorem Bindable.low_index : ((lowEdges holes 0).map (·.c.index)) = List.range holes.length := by
  rw [lowEdges_index, List.range_eq_range']
  intro H hH
  obtain ⟨e, -, he, -⟩ := h.anchor _ hH
  exact ⟨_, he⟩

/-- The edge looked up for a hole. -/
theorem Bindable.low {s : IdSeg} (hs : s ∈ lowEdges holes 0) : s.c.hole = true ∧ ∃ H ∈ holes, PieceOf outer holes s.c H ∧
    ∃ e ∈ polyEdges H, s.a = (dartOf e).s.a ∧ s.b = (dartOf e).s.b ∧ (dartOf e).fwd = cw ∧ s.a.x < s.b.x ∧
      ∀ f ∈ polyEdges H, (dartOf f).fwd = (!cw) → Before (dartOf e).s (dartOf f).s := by
  obtain ⟨h1, H, h2, h3⟩ := mem_lowEdges.1 hs
  have hH := List.mem_of_getElem? h2
  obtain ⟨e, e1, e2, e3, e4, e5⟩ := h.anchor _ hH
  rw [h3] at e2
  obtain ⟨ea, eb⟩ := Prod.mk.inj (Option.some.inj e2)
  refine ⟨h1, H, hH, ?_, e, e1, ea, eb, e3, by rw [ea, eb]; exact e4, e5⟩
  unfold PieceOf; rw [if_pos h1]; exact h2

theorem Bindable.bindInput (x0 x1 : Int) :
    BindInput (floorSegments (outer.map fun c => [c]) holes x0 x1 cw) (lowEdges holes 0) := by
  generalize hfl : floorSegments (outer.map fun c => [c]) holes x0 x1 cw = floor
  generalize han : lowEdges holes 0 = anchors
  have hF : ∀ m ∈ floor, ∃ Y, PieceOf outer holes m.c Y ∧ ∃ e ∈ polyEdges Y, (dartOf e).fwd = (!cw) ∧ m.a = (dartOf e).s.a ∧
      m.b = (dartOf e).s.b ∧ m.a.x < m.b.x := by
    intro m hm
    rw [← hfl] at hm
    obtain ⟨Y, hY, e, he, h1, h2, h3, h4, -⟩ := mem_floor_iff.1 hm
    exact ⟨Y, hY, e, he, h1, h2, h3, h4⟩
  have hB : ∀ m ∈ floor ++ anchors, ∃ Y, PieceOf outer holes m.c Y ∧ ∃ e ∈ polyEdges Y, m.a = (dartOf e).s.a ∧
      m.b = (dartOf e).s.b ∧ m.a.x < m.b.x := by
    intro m hm
    rcases List.mem_append.1 hm with hm | hm
    · obtain ⟨Y, h1, d, h2, -, h4⟩ := hF m hm
      exact ⟨Y, h1, d, h2, h4⟩
    · rw [← han] at hm
      obtain ⟨-, H, -, h1, e, h2, h3, h4, -, h5, -⟩ := h.low hp hm
      exact ⟨H, h1, e, h2, h3, h4, h5⟩
  refine ⟨fun s hs => ?_, ?_, ?_⟩
  · obtain ⟨_, _, _, _, _, _, h4⟩ := hB s hs
    exact h4
  · intro f hf g hg hne
    obtain ⟨X, ox, d, hd, a1, b1, -⟩ := hB f hf
    obtain ⟨Y, oy, d', hd', a2, b2, -⟩ := hB g hg
    rw [a1, b1, a2, b2]
    refine hp.meet (h.mem X ox.mem _ hd) (h.mem Y oy.mem _ hd') ?_
    intro e
    apply hne
    rw [a1, a2, b1, b2, e]
    exact ⟨rfl, rfl⟩
  · intro f hf g hg ha hb
    obtain ⟨X, ox, d, hd, w1, a1, b1, -⟩ := hF f hf
    obtain ⟨Y, oy, d', hd', w2, a2, b2, -⟩ := hF g hg
    obtain rfl : d = d' := dart_ext
      (by rw [← a1, ← a2, ha]) (by rw [← b1, ← b2, hb]) (w1.trans w2.symm)
    obtain rfl := h.owner _ ox.mem _ oy.mem _ hd hd'
    have hc := ox.unique h oy
    obtain ⟨fa, fb, fc⟩ := f
    obtain ⟨ga, gb, gc⟩ := g
    simp only at ha hb hc
    rw [ha, hb, hc]

/-- Different anchors are different edges. -/
theorem Bindable.low_ends {x y : IdSeg} (hx : x ∈ lowEdges holes 0) (hy : y ∈ lowEdges holes 0) (hne : x ≠ y) :
    ¬ (x.a = y.a ∧ x.b = y.b) := by
  rintro ⟨ea, eb⟩
  obtain ⟨-, X, -, ox, d, hd, a1, b1, w1, -⟩ := h.low hp hx
  obtain ⟨-, Y, -, oy, d', hd', a2, b2, w2, -⟩ := h.low hp hy
  obtain rfl : d = d' := dart_ext
    (by rw [← a1, ← a2, ea]) (by rw [← b1, ← b2, eb]) (w1.trans w2.symm)
  obtain rfl := h.owner _ ox.mem _ oy.mem _ hd hd'
  have hc := ox.unique h oy
  apply hne
  obtain ⟨fa, fb, fc⟩ := x
  obtain ⟨ga, gb, gc⟩ := y
  simp only at ea eb hc
  rw [ea, eb, hc]

/-- The anchors sorted by the external sort are in the order of the sweep. -/
theorem Bindable.low_before {sortI : List IdSeg → List IdSeg} (hs : SortsByA sortI) :
    (sortI (lowEdges holes 0)).Pairwise Before := by
  have hb := h.bindInput hp 0 0
  have hlt : ∀ s ∈ lowEdges holes 0, s.a < s.b := fun s hsm => hb.lt (List.mem_append_right _ hsm)
  have hperm := (hs (lowEdges holes 0)).1
  have hnd : (sortI (lowEdges holes 0)).Nodup := by
    rw [hperm.nodup_iff]
    exact List.Nodup.of_map _ (by rw [h.low_index hp]; exact List.nodup_range)
  refine List.Pairwise.imp_of_mem ?_ (hnd.and ((hs (lowEdges holes 0)).2 hlt))
  intro x y hx hy ⟨hne, hcmp⟩
  have hx := hperm.mem_iff.1 hx
  have hy := hperm.mem_iff.1 hy
  have hnb : ¬ Before y x := fun hbf => hcmp (cmp_gt_iff.2 hbf)
  have hends := h.low_ends hp hx hy hne
  rcases Pt.lt_tri x.a y.a with c | ha | c
  · exact Or.inl c
  · have := pair_fan (hlt x hx) (hlt y hy) (hb.meet _ (List.mem_append_right _ hx) _ (List.mem_append_right _ hy) hends) hne ha
    rcases lt_or_gt_of_ne this with k | k
    · exfalso
      apply hnb
      refine Or.inr ⟨ha.symm, ?_⟩
      rw [ha, fan_swap]
      omega
    · exact Or.inr ⟨ha, k⟩
  · exact absurd (Or.inl c) hnb

/-- For the edge of every hole: the first edge of a contour below it. -/
theorem Bindable.target {s : IdSeg} {H : List Pt} (ho : PieceOf outer holes s.c H) (hs : s ∈ lowEdges holes 0)
    {x0 x1 : Int} (hx0 : x0 ≤ s.a.x) (hx1 : s.a.x ≤ x1) :
    ∃ m Y, PieceOf outer holes m.c Y ∧
      FirstBelow (· ∈ floorSegments (outer.map fun c => [c]) holes x0 x1 cw) s m ∧
      S H Y ∧
      (m.c.hole = true → ∃ t ∈ lowEdges holes 0, t.c = m.c ∧ Before t s) := by
  obtain ⟨hc, H', hH', ho', e, he, ta, tb, hw, hx, hlast⟩ := h.low hp hs
  obtain rfl := ho.val_unique ho'
  obtain ⟨Y, hY, f, hf, d1, d2, d3⟩ := h.surround _ ho.mem _ he hw (by rw [← ta, ← tb]; exact hx)
  obtain ⟨c, hcY⟩ := PieceOf.exists hY
  have hfE := h.mem Y hY f hf
  have heE := h.mem H ho.mem e he
  refine ⟨⟨(dartOf f).s.a, (dartOf f).s.b, c⟩, Y, hcY, ?_, d3, ?_⟩
  · have hsp := d2.spans
    rw [← ta] at hsp
    have hsx := hsp.1
    have hsy := hsp.2
    refine ⟨?_, hsp, ?_, ?_⟩
    · refine mem_floor_iff.2 ⟨Y, hcY, f, hf, d1, rfl, rfl, ?_, ?_, ?_⟩
      · show (dartOf f).s.a.x < (dartOf f).s.b.x
        omega
      · show x0 < (dartOf f).s.b.x
        omega
      · show (dartOf f).s.a.x ≤ x1
        omega
    · have hd2 := d2.low
      rw [← ht_ends (s := s) ta tb, ← ta] at hd2
      exact hd2
    · intro g hg sg lg
      obtain ⟨Z, oz, k, hkm, k1, k2, k3, -⟩ := mem_floor_iff.1 hg
      have hkE := h.mem Z oz.mem k hkm
      rw [spans_ends k2 k3, ta] at sg
      rw [ht_ends (s := s) ta tb, ht_ends k2 k3, ta] at lg
      rcases d2.first (dartOf k).s ⟨hkE, Z, oz.mem, k, hkm, rfl⟩ sg lg with q | q
      · left
        obtain rfl : k = f := dart_ext (by rw [q]) (by rw [q]) (k1.trans d1.symm)
        obtain rfl := h.owner _ oz.mem _ hY _ hkm hf
        have hcc := oz.unique h hcY
        obtain ⟨fa, fb, fc⟩ := g
        simp only at k2 k3 hcc
        rw [k2, k3, hcc]
      · right
        rw [← ta] at q
        rw [ht_ends k2 k3]
        exact q
  · intro hm
    have hYh : Y ∈ holes := by
      unfold PieceOf at hcY
      have hm : c.hole = true := hm
      rw [if_pos hm] at hcY
      exact List.mem_of_getElem? hcY
    obtain ⟨u, u1, u2, u3, u4, u5⟩ := h.anchor _ hYh
    refine ⟨⟨(dartOf u).s.a, (dartOf u).s.b, c⟩, mem_lowEdges.2 ⟨hm, Y, ?_, u2⟩, rfl, ?_⟩
    · unfold PieceOf at hcY
      have hm : c.hole = true := hm
      rw [if_pos hm] at hcY
      exact hcY
    · have b1 := u5 f hf d1
      -- the first edge below starts before the edge of the hole
      have hne : (dartOf f).s ≠ (dartOf e).s := by
        intro q
        have := d2.low
        rw [q] at this
        exact lt_irrefl _ this
      have b2 : Before (dartOf f).s (dartOf e).s :=
        pair_left (hp.lt _ hfE) (hp.lt _ heE) (hp.meet hfE heE hne) (by rw [← ta, ← tb]; exact hx) d2.spans d2.low
      have huE := h.mem Y hY u u1
      have := before_trans (hp.lt _ huE) (hp.lt _ hfE) (hp.lt _ heE) b1 b2
      exact (before_ends (s := (⟨(dartOf u).s.a, (dartOf u).s.b, c⟩ : IdSeg)) (t := s) (s' := (dartOf u).s) (t' := (dartOf e).s)
        rfl rfl ta tb).2 this

/-- Every hole has an outer contour with the same surroundings. -/
theorem Bindable.parent {H : List Pt} (hH : H ∈ holes) : ∃ O ∈ outer, S H O := by
  have hb := h.bindInput hp 0 0
  have hperm := (stableSort_sorts (lowEdges holes 0)).1
  have key := sorted_induct (fun s hs => hb.lt (List.mem_append_right _ (hperm.mem_iff.1 hs))) (h.low_before hp stableSort_sorts)
    (fun s => ∀ H, PieceOf outer holes s.c H → ∃ O ∈ outer, S H O) (by
    intro s hs ih H ho
    obtain ⟨m, Y, m1, -, m2, m3⟩ := h.target hp ho (hperm.mem_iff.1 hs) (le_refl _) (le_refl _)
    cases hm : m.c.hole
    · unfold PieceOf at m1
      rw [hm] at m1
      exact ⟨Y, List.mem_of_getElem? m1, m2⟩
    · obtain ⟨t, t1, t2, t3⟩ := m3 hm
      obtain ⟨O, o1, o2⟩ := ih t (hperm.mem_iff.2 t1) t3 Y (by rw [t2]; exact m1)
      exact ⟨O, o1, h.trans _ _ _ m1.mem m2 o2⟩)
  obtain ⟨i, hi⟩ := List.getElem?_of_mem hH
  obtain ⟨u, u1, u2, u3, u4, u5⟩ := h.anchor _ hH
  refine key ⟨(dartOf u).s.a, (dartOf u).s.b, ⟨true, i⟩⟩ (hperm.mem_iff.2 (mem_lowEdges.2 ⟨rfl, H, hi, u2⟩)) H ?_
  exact hi

/-- The sweep finds the shape around every hole. -/
theorem Bindable.bind {o : BindOracle} (hok : o.Ok) {sortI : List IdSeg → List IdSeg} (hs : SortsByA sortI)
    (hn : outer ≠ []) {A : List IdSeg} (hperm : A.Perm (lowEdges holes 0)) (hbef : A.Pairwise Before) {x0 x1 : Int} (hx : ∀ s ∈ lowEdges holes 0, x0 ≤ s.a.x ∧ s.a.x ≤ x1) :
    ∃ ps, bindSolve o outer.length A
        (sortI (floorSegments (outer.map fun c => [c]) holes x0 x1 cw)) = some ps ∧
      ps.length = holes.length ∧
      ∀ (i : Nat) (H : List Pt), holes[i]? = some H → ∃ (p : Nat) (O : List Pt), ps[i]? = some p ∧ outer[p]? = some O ∧
        S H O := by
  have hb := h.bindInput hp x0 x1
  have hidx := h.low_index hp
  have htgt := fun (s : IdSeg) (H : List Pt) (ho : PieceOf outer holes s.c H) (hsm : s ∈ lowEdges holes 0) =>
    h.target hp ho hsm (hx s hsm).1 (hx s hsm).2
  have hlow := fun (s : IdSeg) (hsm : s ∈ lowEdges holes 0) => h.low hp hsm
  have hmem := fun s : IdSeg => mem_lowEdges (holes := holes) (s := s)
  generalize hfl : floorSegments (outer.map fun c => [c]) holes x0 x1 cw = floor at *
  generalize hA0 : lowEdges holes 0 = A0 at *
  have hlt : ∀ s ∈ A, s.a < s.b := fun s hsm => hb.lt (List.mem_append_right _ (hperm.mem_iff.1 hsm))
  have hlen : A.length = holes.length := by
    rw [hperm.length_eq, ← List.length_map (as := A0) (f := fun s : IdSeg => s.c.index), hidx, List.length_range]
  have hidxA : (A.map (·.c.index)).Perm (List.range A.length) := by
    rw [hlen, ← hidx]; exact hperm.map _
  have hndA : (A.map (·.c.index)).Nodup := hidxA.nodup_iff.2 List.nodup_range
  have howner : ∀ s ∈ A, ∃ H, PieceOf outer holes s.c H := by
    intro s hsm
    obtain ⟨-, H, -, ho, -⟩ := hlow s (hperm.mem_iff.1 hsm)
    exact ⟨H, ho⟩
  obtain ⟨ps, p1, p2, p3, p4, p5⟩ := bindLoop_first hb hok (hs floor).1 ((hs floor).2 fun s hsm => hb.lt (List.mem_append_left _ hsm))
    outer.length A [] (sortI floor) [] (List.replicate A.length 0)
    (fun s hsm => hperm.mem_iff.1 hsm)
    (by
      refine hbef.imp_of_mem ?_
      intro x y hxm hym hxy hgt
      exact before_irrefl _ (before_trans (hlt x hxm) (hlt y hym) (hlt x hxm) hxy (cmp_gt_iff.1 hgt)))
    hndA
    (by
      intro s hsm
      rw [List.length_replicate]
      exact List.mem_range.1 (hidxA.mem_iff.1 (List.mem_map_of_mem hsm)))
    (by
      intro p hp
      rw [List.eq_of_mem_replicate hp]
      exact List.length_pos_iff.2 hn)
    ⟨by simp, by simp, by simp, by simp⟩
    (by
      intro l s r he
      have hsA : s ∈ A := by rw [he]; simp
      obtain ⟨H, ho⟩ := howner s hsA
      obtain ⟨m, Y, m1, m2, -, m3⟩ := htgt s H ho (hperm.mem_iff.1 hsA)
      refine ⟨m, m2, ?_, ?_⟩
      · intro hm
        unfold PieceOf at m1
        rw [hm] at m1
        exact (List.getElem?_eq_some_iff.1 m1).1
      · intro hm
        obtain ⟨t, t1, t2, t3⟩ := m3 hm
        have htA := hperm.mem_iff.2 t1
        rw [List.length_replicate, ← t2]
        refine ⟨List.mem_range.1 (hidxA.mem_iff.1 (List.mem_map_of_mem htA)), ?_⟩
        intro hc
        obtain ⟨t', ht', e⟩ := List.mem_map.1 hc
        have htt : t' = t := List.inj_on_of_nodup_map hndA (by rw [he]; exact List.mem_append_right _ ht') htA e
        subst htt
        rcases List.mem_cons.1 ht' with rfl | ht'
        · exact before_irrefl _ t3
        · rw [he] at hbef
          have := (List.pairwise_cons.1 (List.pairwise_append.1 hbef).2.1).1 t' ht'
          exact before_irrefl _ (before_trans (hlt t' htA) (hlt s hsA) (hlt t' htA) t3 this))
  rw [List.length_replicate] at p2
  refine ⟨ps, p1, p2.trans hlen, ?_⟩
  have key := sorted_induct hlt hbef (fun s => ∀ H, PieceOf outer holes s.c H → ∃ p O, ps[s.c.index]? = some p ∧
      outer[p]? = some O ∧ S H O) (by
    intro s hsA ih H ho
    obtain ⟨m, Y, m1, m2, m4, m3⟩ := htgt s H ho (hperm.mem_iff.1 hsA)
    have hps := p5 s hsA m m2
    cases hm : m.c.hole
    · rw [hm] at hps
      simp only [Bool.false_eq_true, if_false] at hps
      unfold PieceOf at m1
      rw [hm] at m1
      exact ⟨m.c.index, Y, hps, m1, m4⟩
    · rw [hm] at hps
      simp only [if_true] at hps
      obtain ⟨t, t1, t2, t3⟩ := m3 hm
      obtain ⟨p, O, o1, o2, o3⟩ := ih t (hperm.mem_iff.2 t1) t3 Y (by rw [t2]; exact m1)
      rw [t2] at o1
      exact ⟨p, O, hps.trans o1, o2, h.trans _ _ _ m1.mem m4 o3⟩)
  intro i H hi
  obtain ⟨u, u1, u2, u3, u4, u5⟩ := h.anchor _ (List.mem_of_getElem? hi)
  exact key ⟨(dartOf u).s.a, (dartOf u).s.b, ⟨true, i⟩⟩ (hperm.mem_iff.2 ((hmem _).2 ⟨rfl, H, hi, u2⟩)) H hi

/-- Joining succeeds for anchors in the order of the sweep; every hole goes to an outer contour with the same
surroundings. -/
theorem Bindable.scan {o : BindOracle} (hok : o.Ok) {sortI : List IdSeg → List IdSeg} (hs : SortsByA sortI)
    (hn : outer ≠ []) (hh : holes ≠ []) {A : List IdSeg} (hperm : A.Perm (lowEdges holes 0)) (hbef : A.Pairwise Before) :
    ∃ parents : List Nat, parents.length = holes.length ∧ (∀ p ∈ parents, p < outer.length) ∧
      scanJoin o sortI (outer.map fun c => [c]) holes A cw =
        some (attach (outer.map fun c => [c]) (holes.zip parents)) ∧
      ∀ (i : Nat) (H : List Pt), holes[i]? = some H → ∃ (p : Nat) (O : List Pt), parents[i]? = some p ∧ outer[p]? = some O ∧
        S H O := by
  have hlen : A.length = holes.length := by
    rw [hperm.length_eq, ← List.length_map (as := lowEdges holes 0) (f := fun s : IdSeg => s.c.index),
      h.low_index hp, List.length_range]
  have hA : A ≠ [] := by
    intro hc
    rw [hc] at hlen
    exact hh (List.length_eq_zero_iff.1 hlen.symm)
  have hbind := fun (x0 x1 : Int) => h.bind hp hok hs hn hperm hbef (x0 := x0) (x1 := x1)
  obtain ⟨f0, hf0⟩ : ∃ f0, A.head? = some f0 := by
    rcases A with _ | ⟨a, A⟩
    · exact absurd rfl hA
    · exact ⟨a, rfl⟩
  obtain ⟨f1, hf1⟩ : ∃ f1, A.getLast? = some f1 := ⟨_, List.getLast?_eq_some_getLast hA⟩
  have hx : ∀ s ∈ A, f0.a.x ≤ s.a.x ∧ s.a.x ≤ f1.a.x := by
    intro s hsA
    constructor
    · rcases A with _ | ⟨a, A⟩
      · simp at hsA
      · obtain rfl : a = f0 := by simpa using hf0
        rcases List.mem_cons.1 hsA with rfl | hsA
        · exact le_refl _
        · rcases (List.pairwise_cons.1 hbef).1 s hsA with k | k
          · rw [Pt.lt_def] at k; omega
          · rw [k.1]
    · obtain ⟨A', e⟩ : ∃ A', A = A' ++ [f1] := by
        rcases List.eq_nil_or_concat A with rfl | ⟨A', y, rfl⟩
        · exact absurd rfl hA
        · rw [List.concat_eq_append] at *
          rw [List.getLast?_concat] at hf1
          exact ⟨A', by rw [Option.some.inj hf1]⟩
      rw [e] at hsA hbef
      rcases List.mem_append.1 hsA with hsA | hsA
      · rcases (List.pairwise_append.1 hbef).2.2 s hsA f1 (by simp) with k | k
        · rw [Pt.lt_def] at k; omega
        · rw [k.1]
      · obtain rfl : s = f1 := by simpa using hsA
        exact le_refl _
  obtain ⟨ps, p1, p2, p3⟩ := hbind f0.a.x f1.a.x fun s hsm => hx s (hperm.mem_iff.2 hsm)
  have hps : ∀ p ∈ ps, p < outer.length := by
    intro p hp
    obtain ⟨i, hi⟩ := List.getElem?_of_mem hp
    have hil : i < holes.length := by rw [← p2]; exact (List.getElem?_eq_some_iff.1 hi).1
    obtain ⟨p', O1, q1, q2, -⟩ := p3 i _ (List.getElem?_eq_getElem hil)
    rw [hi] at q1
    rw [Option.some.inj q1]
    exact (List.getElem?_eq_some_iff.1 q2).1
  refine ⟨ps, p2, hps, ?_, p3⟩
  unfold scanJoin
  rw [hf0, hf1, Option.bind_some, Option.bind_some, List.length_map, p1, Option.bind_some,
    if_pos (by omega), pushHoles_spec]
  intro y hy
  rw [List.length_map]
  exact hps _ (List.of_mem_zip hy).2

/-- The three cases of joining: nothing to do, one shape, or the sweep. -/
theorem Bindable.join {o : BindOracle} (hok : o.Ok) {sortI : List IdSeg → List IdSeg} (hs : SortsByA sortI)
    {A : List IdSeg} (hperm : A.Perm (lowEdges holes 0)) (hbef : A.Pairwise Before)
    {res : Option (List (List (List Pt)))}
    (hres : res = if (outer.map fun c => [c]).isEmpty || holes.isEmpty then some (outer.map fun c => [c])
      else match outer.map fun c => [c] with
        | [s] => some [s ++ holes]
        | _ => scanJoin o sortI (outer.map fun c => [c]) holes A cw) :
    ∃ parents : List Nat, parents.length = holes.length ∧ (∀ p ∈ parents, p < outer.length) ∧
      res = some (attach (outer.map fun c => [c]) (holes.zip parents)) ∧
      ∀ (i : Nat) (H : List Pt), holes[i]? = some H → ∃ (p : Nat) (O : List Pt), parents[i]? = some p ∧ outer[p]? = some O ∧
        S H O := by
  rw [hres]
  rcases ho : outer with _ | ⟨O, _ | ⟨O', os⟩⟩
  · have hh : holes = [] := by
      by_contra hn
      obtain ⟨H, hH⟩ := List.exists_mem_of_ne_nil _ hn
      obtain ⟨O, o1, -⟩ := h.parent hp hH
      rw [ho] at o1
      simp at o1
    subst hh
    refine ⟨[], rfl, by simp, rfl, by simp⟩
  · rw [← ho]
    refine ⟨List.replicate holes.length 0, by simp, ?_, ?_, ?_⟩
    · intro p hp
      rw [List.eq_of_mem_replicate hp, ho]; simp
    · rw [ho]
      simp only [List.map_cons, List.map_nil]
      rw [← attach_single [O] holes]
      cases hh : holes <;> simp
    · intro i H hi
      obtain ⟨O1, o1, o2⟩ := h.parent hp (List.mem_of_getElem? hi)
      refine ⟨0, O1, ?_, ?_, o2⟩
      · rw [List.getElem?_replicate, if_pos (List.getElem?_eq_some_iff.1 hi).1]
      · rw [ho] at o1 ⊢
        obtain rfl : O1 = O := by simpa using o1
        rfl
  · rw [← ho]
    have hn : outer ≠ [] := by rw [ho]; simp
    by_cases hh : holes = []
    · subst hh
      refine ⟨[], rfl, by simp, ?_, by simp⟩
      simp [attach_nil]
    · obtain ⟨ps, p1, p2, p3, p4⟩ := h.scan hp hok hs hn hh hperm hbef
      refine ⟨ps, p1, p2, ?_, p4⟩
      have c1 : ((outer.map fun c => [c]).isEmpty || holes.isEmpty) = false := by
        simp [hn, hh]
      rw [c1]
      simp only [Bool.false_eq_true, if_false]
      rw [ho] at p3 ⊢
      exact p3

/-- Joining with anchors looked up for every hole. -/
theorem Bindable.unsorted {o : BindOracle} (hok : o.Ok) {sortI : List IdSeg → List IdSeg} (hs : SortsByA sortI) :
    ∃ parents : List Nat, parents.length = holes.length ∧ (∀ p ∈ parents, p < outer.length) ∧
      joinUnsortedHoles o sortI (outer.map fun c => [c]) holes cw =
        some (attach (outer.map fun c => [c]) (holes.zip parents)) ∧
      ∀ (i : Nat) (H : List Pt), holes[i]? = some H → ∃ (p : Nat) (O : List Pt), parents[i]? = some p ∧ outer[p]? = some O ∧
        S H O := by
  refine h.join hp hok hs (hs (lowEdges holes 0)).1 (h.low_before hp hs) ?_
  have hmap : (holes.zipIdx.mapM fun h => (leftBottomSegment h.1).map fun v => (⟨v.1, v.2, ⟨true, h.2⟩⟩ : IdSeg)) =
      some (lowEdges holes 0) := by
    refine mapM_filterMap ?_
    rintro ⟨H, i⟩ hi
    rw [List.mem_zipIdx_iff_getElem?] at hi
    obtain ⟨u, -, u2, -⟩ := h.anchor _ (List.mem_of_getElem? hi)
    exact ⟨_, by dsimp only; rw [u2]; rfl⟩
  unfold joinUnsortedHoles
  rw [hmap, Option.bind_some]
  rfl

/-- Joining with given anchors in the order of their left ends. -/
theorem Bindable.sorted {o : BindOracle} (hok : o.Ok) {sortI : List IdSeg → List IdSeg} (hs : SortsByA sortI)
    {anchors : List IdSeg} (hperm : anchors.Perm (lowEdges holes 0)) (hord : anchors.Pairwise fun x y => ¬ y.a < x.a) :
    ∃ parents : List Nat, parents.length = holes.length ∧ (∀ p ∈ parents, p < outer.length) ∧
      joinSortedHoles o sortI (outer.map fun c => [c]) holes anchors cw =
        some (attach (outer.map fun c => [c]) (holes.zip parents)) ∧
      ∀ (i : Nat) (H : List Pt), holes[i]? = some H → ∃ (p : Nat) (O : List Pt), parents[i]? = some p ∧ outer[p]? = some O ∧
        S H O := by
  refine h.join hp hok hs ((addSortByAngle_perm anchors).trans hperm) ?_ rfl
  have hb := h.bindInput hp 0 0
  refine addSortByAngle_sorted (fun x hx => hb.lt (List.mem_append_right _ (hperm.mem_iff.1 hx))) hord ?_
  have hnd : anchors.Nodup := hperm.nodup_iff.2 (List.Nodup.of_map _ (by rw [h.low_index hp]; exact List.nodup_range))
  refine List.Pairwise.imp_of_mem ?_ hnd
  intro x y hx hy hne ha
  have hx := hperm.mem_iff.1 hx
  have hy := hperm.mem_iff.1 hy
  have := pair_fan (hb.lt (List.mem_append_right _ hx)) (hb.lt (List.mem_append_right _ hy))
    (hb.meet _ (List.mem_append_right _ hx) _ (List.mem_append_right _ hy) (h.low_ends hp hx hy hne)) hne ha
  rcases lt_or_gt_of_ne this with k | k
  · right
    refine Or.inr ⟨ha.symm, ?_⟩
    rw [ha, fan_swap]
    omega
  · exact Or.inl (Or.inr ⟨ha, k⟩)

end
end IOverlay
