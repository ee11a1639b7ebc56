/-
The edges and anchors given to the sweep that attaches holes, in terms of the contours found. C26, C43.
-/
import Verif.AngleSort
import Verif.Keys
import Verif.SliceLemmas

namespace IOverlay
variable {K : Type}

/-! ### edges of a contour and of its reverse -/

theorem mem_polyEdges_rotate {c : List Pt} (p : Pt) (e : Pt × Pt) : e ∈ polyEdges (c ++ [p]) ↔ e ∈ polyEdges (p :: c) := by
  rcases c with _ | ⟨x, c⟩
  · exact Iff.rfl
  · rw [polyEdges_eq_pathSteps (path := (x :: c) ++ [p]) (p := x) (by simp),
      polyEdges_eq_pathSteps (path := p :: x :: c) (p := p) rfl,
      pathSteps_append (a := p) List.getLast?_concat]
    have : pathSteps ((p :: x :: c) ++ [p]) = (p, x) :: pathSteps ((x :: c) ++ [p]) := rfl
    rw [this]
    simp only [List.mem_append, List.mem_cons, List.not_mem_nil, or_false]
    exact or_comm

theorem mem_polyEdges_reverse (c : List Pt) (u v : Pt) : (u, v) ∈ polyEdges c.reverse ↔ (v, u) ∈ polyEdges c := by
  rcases c with _ | ⟨p, c⟩
  · simp [polyEdges]
  · rw [List.reverse_cons, mem_polyEdges_rotate, polyEdges_eq_pathSteps (path := p :: c.reverse) (p := p) rfl,
      polyEdges_eq_pathSteps (path := p :: c) (p := p) rfl]
    have e : (p :: c.reverse) ++ [p] = ((p :: c) ++ [p]).reverse := by simp
    rw [e, (pathSteps_reverse _).mem_iff, List.mem_map]
    constructor
    · rintro ⟨⟨x, y⟩, h1, h2⟩
      simp only [Prod.swap, Prod.mk.injEq] at h2
      rw [← h2.1, ← h2.2]; exact h1
    · intro h
      exact ⟨(v, u), h, rfl⟩

section
variable {E : List Edge} (hp : Planar E)

include hp

/-- The edges of a contour with the result above them. -/
theorem Tour.mem_idSegments {cw' cw : Bool} {U : Edge → Prop} {q : Pt} {D : List (Dart (Pt × Pt))} (hT : Tour cw' E U q D)
    (id : CIdx) (x0 x1 : Int) (m : IdSeg) :
    m ∈ idSegments id x0 x1 cw (D.map Dart.start) ↔
      ∃ d ∈ D, d.fwd = (!cw) ∧ m = ⟨d.s.a, d.s.b, id⟩ ∧ d.s.a.x < d.s.b.x ∧ x0 < d.s.b.x ∧ d.s.a.x ≤ x1 := by
  unfold idSegments
  rw [List.mem_filterMap]
  have hlt : ∀ d ∈ D, d.s.a < d.s.b := fun d hd => hp.lt _ (hT.mem d hd).1
  have hedge : ∀ u v, (u, v) ∈ polyEdges (if cw then D.map Dart.start else (D.map Dart.start).reverse) ↔
      ∃ d ∈ D, u = (if d.fwd = (!cw) then d.s.b else d.s.a) ∧ v = if d.fwd = (!cw) then d.s.a else d.s.b := by
    intro u v
    have : ∀ x y, (x, y) ∈ polyEdges (D.map Dart.start) ↔ ∃ d ∈ D, x = d.start ∧ y = d.finish := by
      intro x y
      rw [hT.polyEdges_eq, List.mem_map]
      constructor
      · rintro ⟨d, hd, he⟩
        simp only [Prod.mk.injEq] at he
        exact ⟨d, hd, he.1.symm, he.2.symm⟩
      · rintro ⟨d, hd, h1, h2⟩
        exact ⟨d, hd, by rw [h1, h2]⟩
    cases cw
    · simp only [Bool.false_eq_true, if_false]
      rw [mem_polyEdges_reverse, this]
      refine exists_congr fun d => and_congr_right fun _ => ?_
      unfold Dart.start Dart.finish
      cases d.fwd <;> simp [and_comm]
    · simp only [if_true]
      rw [this]
      refine exists_congr fun d => and_congr_right fun _ => ?_
      unfold Dart.start Dart.finish
      cases d.fwd <;> simp
  constructor
  · rintro ⟨⟨u, v⟩, he, hm⟩
    obtain ⟨d, hd, hu, hv⟩ := (hedge u v).1 he
    dsimp only at hm
    split at hm
    · rename_i hc
      obtain rfl := Option.some.inj hm
      by_cases hf : d.fwd = (!cw)
      · rw [if_pos hf] at hu hv
        subst hu hv
        exact ⟨d, hd, hf, rfl, hc.1, hc.2.1, hc.2.2⟩
      · rw [if_neg hf] at hu hv
        subst hu hv
        have := hlt d hd
        rw [Pt.lt_def] at this
        omega
    · simp at hm
  · rintro ⟨d, hd, hf, rfl, h1, h2, h3⟩
    refine ⟨(d.s.b, d.s.a), (hedge _ _).2 ⟨d, hd, by rw [if_pos hf], by rw [if_pos hf]⟩, ?_⟩
    dsimp only
    rw [if_pos ⟨h1, h2, h3⟩]

end

/-! ### indices of the contours -/

/-- Outer contours and holes in the order in which they were found. -/
def outs (fs : List Found) : List Found := fs.filter fun f => !f.hole
def hls (fs : List Found) : List Found := fs.filter fun f => f.hole

/-- The contour with a given index. -/
def Owner (fs : List Found) (c : CIdx) (Y : Found) : Prop :=
  if c.hole then (hls fs)[c.index]? = some Y else (outs fs)[c.index]? = some Y

theorem Owner.mem {fs : List Found} {c : CIdx} {Y : Found} (h : Owner fs c Y) : Y ∈ fs ∧ Y.hole = c.hole := by
  unfold Owner at h
  cases hc : c.hole
  · rw [hc] at h
    have := List.mem_filter.1 (List.mem_of_getElem? h)
    exact ⟨this.1, by simpa using this.2⟩
  · rw [hc] at h
    have := List.mem_filter.1 (List.mem_of_getElem? h)
    exact ⟨this.1, this.2⟩

theorem Owner.exists {fs : List Found} {Y : Found} (h : Y ∈ fs) : ∃ c, Owner fs c Y := by
  cases hc : Y.hole
  · have hm : Y ∈ outs fs := List.mem_filter.2 ⟨h, by simp [hc]⟩
    obtain ⟨i, hi⟩ := List.getElem?_of_mem hm
    exact ⟨⟨false, i⟩, hi⟩
  · have hm : Y ∈ hls fs := List.mem_filter.2 ⟨h, by simp [hc]⟩
    obtain ⟨i, hi⟩ := List.getElem?_of_mem hm
    exact ⟨⟨true, i⟩, hi⟩

theorem Owner.unique {fs : List Found} (hn : fs.Nodup) {c c' : CIdx} {Y : Found} (h : Owner fs c Y) (h' : Owner fs c' Y) :
    c = c' := by
  have hh := h.mem.2.symm.trans h'.mem.2
  obtain ⟨b, i⟩ := c
  obtain ⟨b', i'⟩ := c'
  simp only at hh
  subst hh
  unfold Owner at h h'
  cases b
  · simp only [Bool.false_eq_true, if_false] at h h'
    rw [(List.getElem?_inj (List.getElem?_eq_some_iff.1 h).1 (hn.filter _)).1 (h.trans h'.symm)]
  · simp only [if_true] at h h'
    rw [(List.getElem?_inj (List.getElem?_eq_some_iff.1 h).1 (hn.filter _)).1 (h.trans h'.symm)]

section
variable {E : List Edge} (hp : Planar E) {R : Edge → Prop} {clockwise : Bool} {fs : List Found}
  (h : Tours clockwise E R fs)
include hp h

theorem Tours.topTour {f : Found} (hf : f ∈ fs) : ∃ U, TopTour (f.hole == clockwise) E U f.top f.darts := by
  obtain ⟨l1, l2, rfl⟩ := List.append_of_mem hf
  obtain ⟨U, h1, -, -⟩ := h.split hp (R := R) quiet_start
  exact ⟨U, h1⟩

omit hp in
theorem Tours.edge {f : Found} (hf : f ∈ fs) {d : Dart (Pt × Pt)} (hd : d ∈ f.darts) : d.s ∈ E ∧ R d.s :=
  h.nodup.2 _ (List.mem_flatMap.2 ⟨f, hf, List.mem_map_of_mem hd⟩)

theorem Tours.found_nodup : fs.Nodup := by
  refine List.Pairwise.imp_of_mem (R := fun f f' => List.Disjoint (f.darts.map (·.s)) (f'.darts.map (·.s)))
    (fun {f f'} hf _ hd => ?_) (List.nodup_flatMap.1 h.nodup.1).2
  rintro rfl
  exact hd (List.mem_map_of_mem (h.top_mem hp hf)) (List.mem_map_of_mem (h.top_mem hp hf))

omit hp h in
theorem nodup_owner {α β : Type} {g : α → List β} : ∀ {l : List α}, (l.flatMap g).Nodup → ∀ {x y : α} {b : β}, x ∈ l → y ∈ l →
    b ∈ g x → b ∈ g y → x = y := by
  intro l hn x y b hx hy hbx hby
  by_contra hne
  have := (List.nodup_flatMap.1 hn).2
  have : Std.Symm fun a b : α => (Function.onFun List.Disjoint g) a b := ⟨fun _ _ h => h.symm⟩
  exact (List.Pairwise.forall (List.nodup_flatMap.1 hn).2 hx hy hne) hbx hby

/-- Every edge of the result belongs to one contour, once. -/
theorem Tours.dart_eq {X Y : Found} (hX : X ∈ fs) (hY : Y ∈ fs) {d d' : Dart (Pt × Pt)} (hd : d ∈ X.darts)
    (hd' : d' ∈ Y.darts) (e : d.s = d'.s) : X = Y ∧ d = d' := by
  have hXY : X = Y := nodup_owner h.nodup.1 hX hY (List.mem_map_of_mem hd) (by rw [e]; exact List.mem_map_of_mem hd')
  subst hXY
  obtain ⟨U, ht⟩ := h.topTour hp hX
  obtain ⟨q, ht⟩ := ht.tour
  exact ⟨rfl, List.inj_on_of_nodup_map ht.nodup hd hd' e⟩

/-- The left ends of the contours do not decrease. -/
theorem Tours.tops_sorted : fs.Pairwise fun f f' => ¬ f'.top.a < f.top.a := by
  rw [List.pairwise_iff_forall_sublist]
  intro f f' hsub
  obtain ⟨l1, l2, l3, e1⟩ : ∃ l1 l2 l3, fs = l1 ++ f :: l2 ++ f' :: l3 := by
    rw [List.cons_sublist_iff] at hsub
    obtain ⟨a, b, e1, h1, h2⟩ := hsub
    obtain ⟨a1, a2, rfl⟩ := List.append_of_mem h1
    obtain ⟨b1, b2, rfl⟩ := List.append_of_mem (List.singleton_sublist.1 h2)
    exact ⟨a1, a2 ++ b1, b2, by rw [e1]; simp⟩
  rw [e1] at h
  obtain ⟨U, U', u1, u2, -, -, u3, -, -⟩ := h.earlier hp
  obtain ⟨q, ht⟩ := u2.tour
  obtain ⟨m1, m2⟩ := ht.mem _ u2.head_mem
  exact u1.min _ m1 (u3 _ m2)

/-- The edges given to the sweep. -/
theorem Tours.mem_floor (x0 x1 : Int) (m : IdSeg) :
    m ∈ floorSegments ((outs fs).map fun f => [f.raw]) ((hls fs).map Found.raw) x0 x1 clockwise ↔
      ∃ Y, Owner fs m.c Y ∧ ∃ d ∈ Y.darts, d.fwd = (!clockwise) ∧ m.a = d.s.a ∧ m.b = d.s.b ∧
        d.s.a.x < d.s.b.x ∧ x0 < d.s.b.x ∧ d.s.a.x ≤ x1 := by
  have hseg : ∀ {Y : Found}, Y ∈ fs → ∀ id, m ∈ idSegments id x0 x1 clockwise Y.raw ↔
      id = m.c ∧ ∃ d ∈ Y.darts, d.fwd = (!clockwise) ∧ m.a = d.s.a ∧ m.b = d.s.b ∧
        d.s.a.x < d.s.b.x ∧ x0 < d.s.b.x ∧ d.s.a.x ≤ x1 := by
    intro Y hY id
    obtain ⟨U, ht⟩ := h.topTour hp hY
    obtain ⟨q, ht⟩ := ht.tour
    unfold Found.raw
    rw [ht.mem_idSegments hp]
    constructor
    · rintro ⟨d, hd, h1, rfl, h2⟩
      exact ⟨rfl, d, hd, h1, rfl, rfl, h2⟩
    · rintro ⟨rfl, d, hd, h1, h2, h3, h4⟩
      exact ⟨d, hd, h1, by rw [← h2, ← h3], h4⟩
  unfold floorSegments
  rw [List.mem_append, List.mem_flatMap, List.mem_flatMap]
  constructor
  · rintro (⟨⟨c, i⟩, hc, hm⟩ | ⟨⟨c, i⟩, hc, hm⟩)
    · rw [List.mem_zipIdx_iff_getElem?, List.getElem?_map] at hc
      obtain ⟨Y, hY, rfl⟩ := Option.map_eq_some_iff.1 hc
      have ho : Owner fs ⟨false, i⟩ Y := hY
      obtain ⟨k1, k2⟩ := (hseg ho.mem.1 _).1 hm
      exact ⟨Y, by rw [← k1]; exact ho, k2⟩
    · rw [List.mem_zipIdx_iff_getElem?, List.getElem?_map] at hc
      obtain ⟨Y, hY, rfl⟩ := Option.map_eq_some_iff.1 hc
      have ho : Owner fs ⟨true, i⟩ Y := hY
      obtain ⟨k1, k2⟩ := (hseg ho.mem.1 _).1 hm
      exact ⟨Y, by rw [← k1]; exact ho, k2⟩
  · rintro ⟨Y, ho, hd⟩
    have hm := (hseg ho.mem.1 m.c).2 ⟨rfl, hd⟩
    generalize hcc : m.c = c at ho hm
    obtain ⟨b, i⟩ := c
    cases b
    · left
      refine ⟨([Y.raw], i), ?_, by simpa using hm⟩
      rw [List.mem_zipIdx_iff_getElem?, List.getElem?_map]
      have : (outs fs)[i]? = some Y := ho
      rw [this]; rfl
    · right
      refine ⟨(Y.raw, i), ?_, by simpa using hm⟩
      rw [List.mem_zipIdx_iff_getElem?, List.getElem?_map]
      have : (hls fs)[i]? = some Y := ho
      rw [this]; rfl

end

/-! ### anchors -/

/-- The anchors of the holes before sorting. -/
def anchorSegs (clockwise : Bool) (hs : List (List Pt)) (k : Nat) : List IdSeg :=
  (hs.zipIdx k).filterMap fun h => (holeSegment clockwise h.1).map fun v => ⟨v.1, v.2, ⟨true, h.2⟩⟩

theorem holeSegment_anchor {E : List Edge} (hp : Planar E) {cw : Bool} {U : Edge → Prop} {T : Edge} {D : List (Dart (Pt × Pt))}
    (hT : TopTour cw E U T D) (h3 : 3 ≤ D.length) :
    ∃ s ∈ D, anchorOf cw D = some s ∧ s.s.a = T.a ∧ s.fwd = cw ∧ T.a.x < s.s.b.x ∧
      holeSegment cw (D.map Dart.start) = some (s.s.a, s.s.b) := by
  obtain ⟨s, s1, s2, s3, s4, -, s5, -⟩ := hT.anchor hp
  refine ⟨s, s1, s2, s4, s3, s5, ?_⟩
  have hh := hT.head
  obtain ⟨q, ht⟩ := hT.tour
  rcases D with _ | ⟨x, _ | ⟨y, _ | ⟨z, D⟩⟩⟩
  · simp at h3
  · simp at h3
  · simp at h3
  · simp only [List.head?_cons, Option.some.injEq] at hh
    unfold anchorOf at s2
    unfold holeSegment
    cases cw
    · simp only [Bool.false_eq_true, if_false] at s2 ⊢
      have e1 : x.start = s.s.a := by rw [hh, s4]; rfl
      have hl : ((x :: y :: z :: D).map Dart.start)[((x :: y :: z :: D).map Dart.start).length - 1]? = some s.start := by
        rw [← List.getLast?_eq_getElem?, List.getLast?_map, s2]; rfl
      rw [hl]
      have e2 : s.start = s.s.b := by unfold Dart.start; rw [s3]; rfl
      simp [e1, e2]
    · simp only [if_true] at s2 ⊢
      have hy : y = s := by simpa using s2
      subst hy
      have e1 : y.start = y.s.a := by unfold Dart.start; rw [s3]; rfl
      have e2 : z.start = y.s.b := by
        rw [← (ht.next [x] y z D rfl).1]
        unfold Dart.finish; rw [s3]; rfl
      simp [e1, e2]

theorem anchorSegs_nil (cw : Bool) (k : Nat) : anchorSegs cw [] k = [] := rfl

theorem anchorSegs_cons {cw : Bool} {h : List Pt} {v : Pt × Pt} (e : holeSegment cw h = some v) (hs : List (List Pt)) (k : Nat) :
    anchorSegs cw (h :: hs) k = ⟨v.1, v.2, ⟨true, k⟩⟩ :: anchorSegs cw hs (k + 1) := by
  unfold anchorSegs
  rw [List.zipIdx_cons, List.filterMap_cons]
  simp [e]

section
variable {E : List Edge} (hp : Planar E) {R : Edge → Prop} {clockwise : Bool} {fs : List Found}
  (h : Tours clockwise E R fs) (h3 : ∀ f ∈ fs, 3 ≤ f.darts.length)
include hp h h3

theorem Tours.anchor {H : Found} (hH : H ∈ fs) (hh : H.hole = true) :
    ∃ s ∈ H.darts, anchorOf clockwise H.darts = some s ∧ s.s.a = H.top.a ∧ s.fwd = clockwise ∧ s.s.a.x < s.s.b.x ∧
      holeSegment clockwise H.raw = some (s.s.a, s.s.b) := by
  obtain ⟨U, hT⟩ := h.topTour hp hH
  rw [hh] at hT
  have hT : TopTour clockwise E U H.top H.darts := by simpa using hT
  obtain ⟨s, a1, a2, a3, a4, a5, a6⟩ := holeSegment_anchor hp hT (h3 H hH)
  exact ⟨s, a1, a2, a3, a4, by rw [a3]; exact a5, a6⟩

theorem Tours.anchors_index : ((anchorSegs clockwise ((hls fs).map Found.raw) 0).map (·.c.index)) =
    List.range (hls fs).length := by
  have main : ∀ (l : List Found) (k : Nat), (∀ f ∈ l, f ∈ fs ∧ f.hole = true) →
      ((anchorSegs clockwise (l.map Found.raw) k).map (·.c.index)) = List.range' k l.length := by
    intro l
    induction l with
    | nil => intros; rfl
    | cons f l ih =>
      intro k hl
      obtain ⟨s, -, -, -, -, -, e⟩ := h.anchor hp h3 (hl f (by simp)).1 (hl f (by simp)).2
      rw [List.map_cons, anchorSegs_cons e, List.map_cons, ih _ fun f hf => hl f (by simp [hf])]
      rw [List.length_cons, List.range'_succ]
  rw [main (hls fs) 0 fun f hf => List.mem_filter.1 hf, List.range_eq_range']

theorem Tours.anchors_sorted :
    (anchorSegs clockwise ((hls fs).map Found.raw) 0).Pairwise fun x y => ¬ y.a < x.a := by
  have main : ∀ (l : List Found) (k : Nat), (∀ f ∈ l, f ∈ fs ∧ f.hole = true) →
      l.Pairwise (fun f f' => ¬ f'.top.a < f.top.a) →
      (anchorSegs clockwise (l.map Found.raw) k).Pairwise (fun x y => ¬ y.a < x.a) ∧
      ∀ x ∈ anchorSegs clockwise (l.map Found.raw) k, ∃ f ∈ l, x.a = f.top.a := by
    intro l
    induction l with
    | nil => intro k _ _; exact ⟨List.Pairwise.nil, by simp [anchorSegs]⟩
    | cons f l ih =>
      intro k hl hs
      obtain ⟨p1, p2⟩ := List.pairwise_cons.1 hs
      obtain ⟨s, -, -, e1, -, -, e⟩ := h.anchor hp h3 (hl f (by simp)).1 (hl f (by simp)).2
      obtain ⟨i1, i2⟩ := ih (k + 1) (fun f hf => hl f (by simp [hf])) p2
      rw [List.map_cons, anchorSegs_cons e]
      refine ⟨List.pairwise_cons.2 ⟨?_, i1⟩, ?_⟩
      · intro y hy
        obtain ⟨f', hf', e'⟩ := i2 y hy
        dsimp only
        rw [e', e1]
        exact p1 f' hf'
      · intro y hy
        rcases List.mem_cons.1 hy with rfl | hy
        · exact ⟨f, by simp, e1⟩
        · obtain ⟨f', hf', e'⟩ := i2 y hy
          exact ⟨f', by simp [hf'], e'⟩
  exact (main _ _ (fun f hf => List.mem_filter.1 hf) ((h.tops_sorted hp).filter _)).1

theorem Tours.mem_anchors (s : IdSeg) : s ∈ anchorSegs clockwise ((hls fs).map Found.raw) 0 ↔
    s.c.hole = true ∧ ∃ H, Owner fs s.c H ∧ ∃ t ∈ anchorOf clockwise H.darts, s.a = t.s.a ∧ s.b = t.s.b := by
  unfold anchorSegs
  rw [List.mem_filterMap]
  constructor
  · rintro ⟨⟨c, i⟩, hc, hm⟩
    rw [List.mem_zipIdx_iff_getElem?, List.getElem?_map] at hc
    obtain ⟨H, hH, rfl⟩ := Option.map_eq_some_iff.1 hc
    have ho : Owner fs ⟨true, i⟩ H := hH
    obtain ⟨t, -, t1, -, -, -, e⟩ := h.anchor hp h3 ho.mem.1 ho.mem.2
    dsimp only at hm
    rw [e] at hm
    obtain rfl := Option.some.inj hm
    exact ⟨rfl, H, ho, t, t1, rfl, rfl⟩
  · rintro ⟨hc, H, ho, t, t1, ha, hb⟩
    obtain ⟨t', -, t1', -, -, -, e⟩ := h.anchor hp h3 ho.mem.1 (ho.mem.2.trans hc)
    have htt : t = t' := by
      have t1 : anchorOf clockwise H.darts = some t := t1
      rw [t1'] at t1
      exact (Option.some.inj t1).symm
    subst htt
    refine ⟨(H.raw, s.c.index), ?_, ?_⟩
    · rw [List.mem_zipIdx_iff_getElem?, List.getElem?_map]
      unfold Owner at ho
      rw [if_pos hc] at ho
      rw [ho]; rfl
    · dsimp only
      rw [e, ← ha, ← hb, Option.map_some]
      obtain ⟨a, b, hole, i⟩ := s
      simp only at hc
      rw [hc]

/-- What the sweep is given satisfies its requirements. -/
theorem Tours.bindInput (x0 x1 : Int) :
    BindInput (floorSegments ((outs fs).map fun f => [f.raw]) ((hls fs).map Found.raw) x0 x1 clockwise)
      (anchorSegs clockwise ((hls fs).map Found.raw) 0) := by
  generalize hfl : floorSegments ((outs fs).map fun f => [f.raw]) ((hls fs).map Found.raw) x0 x1 clockwise = floor
  generalize han : anchorSegs clockwise ((hls fs).map Found.raw) 0 = anchors
  have hF : ∀ m ∈ floor, ∃ Y, Owner fs m.c Y ∧ ∃ d ∈ Y.darts, d.fwd = (!clockwise) ∧ m.a = d.s.a ∧ m.b = d.s.b ∧ m.a.x < m.b.x := by
    intro m hm
    rw [← hfl] at hm
    obtain ⟨Y, hY, d, hd, h1, h2, h3, h4, -⟩ := (h.mem_floor hp x0 x1 m).1 hm
    exact ⟨Y, hY, d, hd, h1, h2, h3, by rw [h2, h3]; exact h4⟩
  have hA : ∀ m ∈ anchors, ∃ Y, Owner fs m.c Y ∧ ∃ d ∈ Y.darts, d.fwd = clockwise ∧ m.a = d.s.a ∧ m.b = d.s.b ∧ m.a.x < m.b.x := by
    intro m hm
    rw [← han] at hm
    obtain ⟨h1, Y, hY, t, h2, h4, h5⟩ := (h.mem_anchors hp h3 m).1 hm
    obtain ⟨t', t1, t2, -, t3, t4, -⟩ := h.anchor hp h3 hY.mem.1 (hY.mem.2.trans h1)
    have h2 : anchorOf clockwise Y.darts = some t := h2
    rw [t2] at h2
    obtain rfl := Option.some.inj h2
    exact ⟨Y, hY, t', t1, t3, h4, h5, by rw [h4, h5]; exact t4⟩
  have hB : ∀ m ∈ floor ++ anchors, ∃ Y, Owner fs m.c Y ∧ ∃ d ∈ Y.darts, m.a = d.s.a ∧ m.b = d.s.b ∧ m.a.x < m.b.x := by
    intro m hm
    rcases List.mem_append.1 hm with hm | hm
    · obtain ⟨Y, h1, d, h2, -, h4⟩ := hF m hm
      exact ⟨Y, h1, d, h2, h4⟩
    · obtain ⟨Y, h1, d, h2, -, h4⟩ := hA m hm
      exact ⟨Y, h1, d, h2, h4⟩
  refine ⟨fun s hs => ?_, ?_, ?_⟩
  · obtain ⟨_, _, _, _, _, _, h4⟩ := hB s hs
    exact h4
  · intro f hf g hg hne
    obtain ⟨X, ox, d, hd, a1, b1, -⟩ := hB f hf
    obtain ⟨Y, oy, d', hd', a2, b2, -⟩ := hB g hg
    rw [a1, b1, a2, b2]
    refine hp.meet (h.edge ox.mem.1 hd).1 (h.edge oy.mem.1 hd').1 ?_
    intro e
    apply hne
    rw [a1, a2, b1, b2, e]
    exact ⟨rfl, rfl⟩
  · intro f hf g hg ha hb
    obtain ⟨X, ox, d, hd, a1, b1, -⟩ := hB f (List.mem_append_left _ hf)
    obtain ⟨Y, oy, d', hd', a2, b2, -⟩ := hB g (List.mem_append_left _ hg)
    have e : d.s = d'.s := hp.seg_ext (h.edge ox.mem.1 hd).1 (h.edge oy.mem.1 hd').1
      (by rw [← a1, ← a2, ha]) (by rw [← b1, ← b2, hb])
    obtain ⟨rfl, rfl⟩ := h.dart_eq hp ox.mem.1 oy.mem.1 hd hd' e
    have hc := ox.unique (h.found_nodup hp) oy
    obtain ⟨fa, fb, fc⟩ := f
    obtain ⟨ga, gb, gc⟩ := g
    simp only at ha hb hc
    rw [ha, hb, hc]

end

/-! ### the sweep -/

theorem sorted_induct {A : List IdSeg} (hlt : ∀ s ∈ A, s.a < s.b) (hA : A.Pairwise Before) (Q : IdSeg → Prop)
    (step : ∀ s ∈ A, (∀ t ∈ A, Before t s → Q t) → Q s) : ∀ s ∈ A, Q s := by
  have main : ∀ n, ∀ l r, A = l ++ r → l.length = n → ∀ s ∈ l, Q s := by
    intro n
    induction n with
    | zero => intro l r _ hl s hs; rw [List.length_eq_zero_iff.1 hl] at hs; simp at hs
    | succ n ih =>
      intro l r he hl s hs
      rcases List.eq_nil_or_concat l with rfl | ⟨l', x, rfl⟩
      · simp at hs
      · rw [List.concat_eq_append] at *
        have he' : A = l' ++ (x :: r) := by rw [he]; simp
        have hl' : l'.length = n := by simpa using hl
        rcases List.mem_append.1 hs with hs | hs
        · exact ih l' (x :: r) he' hl' s hs
        · obtain rfl : s = x := by simpa using hs
          have hsA : s ∈ A := by rw [he']; simp
          refine step s hsA fun t ht hb => ?_
          have ht' := ht
          rw [he'] at ht'
          rcases List.mem_append.1 ht' with h | h
          · exact ih l' (s :: r) he' hl' t h
          · exfalso
            rcases List.mem_cons.1 h with rfl | h
            · exact before_irrefl _ hb
            · rw [he'] at hA
              have hst := (List.pairwise_cons.1 (List.pairwise_append.1 hA).2.1).1 t h
              exact before_irrefl _ (before_trans (hlt t ht) (hlt s hsA) (hlt t ht) hb hst)
  exact main A.length A [] (by simp) rfl

theorem ht_ends {C C' : Type} {s : Seg C} {t : Seg C'} (ha : s.a = t.a) (hb : s.b = t.b) (z : ℚ) : ht s z = ht t z := by
  unfold ht; rw [ha, hb]

theorem spans_ends {C C' : Type} {s : Seg C} {t : Seg C'} (ha : s.a = t.a) (hb : s.b = t.b) (n : Int) : s.spans n ↔ t.spans n := by
  unfold Seg.spans; rw [ha, hb]

theorem before_ends {C C' : Type} {s t : Seg C} {s' t' : Seg C'} (h1 : s.a = s'.a) (h2 : s.b = s'.b) (h3 : t.a = t'.a)
    (h4 : t.b = t'.b) : Before s t ↔ Before s' t' := by
  unfold Before; rw [h1, h2, h3, h4]

/-- Contract of the external sort of the edges. -/
def SortsByA (sortI : List IdSeg → List IdSeg) : Prop :=
  ∀ l, (sortI l).Perm l ∧ ((∀ s ∈ l, s.a < s.b) → (sortI l).Pairwise fun x y => cmpByAThenAngle x y ≠ .gt)

section
variable {rule : FillRule} {r : OverlayRule} {segs : List (Seg CountBool)} {R : Edge → Prop} {clockwise : Bool}
  {fs : List Found} {Φ : Bool → Pt × Pt → Int} {F : (Bool → Int) → Int} (h : RunTours rule r segs R clockwise fs Φ F)
  (h3 : ∀ f ∈ fs, 3 ≤ f.darts.length)
  (honce : ∀ f ∈ fs, f.hole = true → ∀ d ∈ f.darts, d.s.a = f.top.a → d.fwd = (!clockwise) → d.s = f.top)
include h h3

/-- The anchors in the order of the sweep. -/
theorem RunTours.anchors_before :
    (addSortByAngle (anchorSegs clockwise ((hls fs).map Found.raw) 0)).Pairwise Before := by
  have hb := h.tours.bindInput h.planar h3 0 0
  have hnd : (anchorSegs clockwise ((hls fs).map Found.raw) 0).Nodup := by
    have := h.tours.anchors_index h.planar h3
    exact List.Nodup.of_map _ (by rw [this]; exact List.nodup_range)
  refine addSortByAngle_sorted (fun x hx => hb.lt (List.mem_append_right _ hx)) (h.tours.anchors_sorted h.planar h3) ?_
  refine List.Pairwise.imp_of_mem ?_ hnd
  intro x y hx hy hne ha
  have lx := hb.lt (List.mem_append_right _ hx)
  have ly := hb.lt (List.mem_append_right _ hy)
  have hends : ¬ (x.a = y.a ∧ x.b = y.b) := by
    rintro ⟨-, eb⟩
    obtain ⟨cx, X, ox, t, tx, xa, xb⟩ := (h.tours.mem_anchors h.planar h3 x).1 hx
    obtain ⟨cy, Y, oy, u, uy, ya, yb⟩ := (h.tours.mem_anchors h.planar h3 y).1 hy
    obtain ⟨t', t1, t2, -⟩ := h.tours.anchor h.planar h3 ox.mem.1 (ox.mem.2.trans cx)
    obtain ⟨u', u1, u2, -⟩ := h.tours.anchor h.planar h3 oy.mem.1 (oy.mem.2.trans cy)
    have tx : anchorOf clockwise X.darts = some t := tx
    have uy : anchorOf clockwise Y.darts = some u := uy
    rw [t2] at tx
    rw [u2] at uy
    obtain rfl := Option.some.inj tx
    obtain rfl := Option.some.inj uy
    have e : t'.s = u'.s := h.planar.seg_ext (h.tours.edge ox.mem.1 t1).1 (h.tours.edge oy.mem.1 u1).1
      (by rw [← xa, ← ya, ha]) (by rw [← xb, ← yb, eb])
    obtain ⟨rfl, -⟩ := h.tours.dart_eq h.planar ox.mem.1 oy.mem.1 t1 u1 e
    have hc := ox.unique (h.tours.found_nodup h.planar) oy
    apply hne
    obtain ⟨fa, fb, fc⟩ := x
    obtain ⟨ga, gb, gc⟩ := y
    simp only at ha eb hc
    rw [ha, eb, hc]
  have := pair_fan lx ly (hb.meet _ (List.mem_append_right _ hx) _ (List.mem_append_right _ hy) hends) hne ha
  rcases lt_or_gt_of_ne this with k | k
  · right
    refine Or.inr ⟨ha.symm, ?_⟩
    rw [ha, fan_swap]
    omega
  · exact Or.inl (Or.inr ⟨ha, k⟩)

include honce

/-- For the anchor of every hole: the first edge of the result below it. -/
theorem RunTours.target {s : IdSeg} {H : Found} (ho : Owner fs s.c H)
    (hs : s ∈ anchorSegs clockwise ((hls fs).map Found.raw) 0) {x0 x1 : Int} (hx0 : x0 ≤ s.a.x) (hx1 : s.a.x ≤ x1) :
    ∃ m Y, Owner fs m.c Y ∧
      FirstBelow (· ∈ floorSegments ((outs fs).map fun f => [f.raw]) ((hls fs).map Found.raw) x0 x1 clockwise) s m ∧
      (∀ X ∈ fs, depth clockwise (segs.map Seg.key) X H = depth clockwise (segs.map Seg.key) X Y) ∧
      (m.c.hole = true → ∃ t ∈ anchorSegs clockwise ((hls fs).map Found.raw) 0, t.c = m.c ∧ Before t s) := by
  obtain ⟨hc, H', ho', t, t1, ta, tb⟩ := (h.tours.mem_anchors h.planar h3 s).1 hs
  have hHH : H' = H := by
    unfold Owner at ho ho'
    rw [if_pos hc] at ho ho'
    rw [ho] at ho'
    exact (Option.some.inj ho').symm
  subst hHH
  have hH := ho.mem.1
  have hh := ho.mem.2.trans hc
  obtain ⟨s', -, s1, -, s2, s3, Y, hY, d, hd, d1, d2, d3, d4⟩ := h.tours.surround h.planar h.keyed Φ h.closed F h.F01 h.F0
    h.jump h.hole (fun s _ hs => h.all s hs) honce hH hh
  have htt : t = s' := by
    have t1 : anchorOf clockwise H'.darts = some t := t1
    rw [s1] at t1
    exact (Option.some.inj t1).symm
  subst htt
  obtain ⟨c, hcY⟩ := Owner.exists hY
  refine ⟨⟨d.s.a, d.s.b, c⟩, Y, hcY, ?_, d3, ?_⟩
  · have hsp := d2.spans
    rw [← ta] at hsp
    have hsx := hsp.1
    have hsy := hsp.2
    refine ⟨?_, ?_, ?_, ?_⟩
    · rw [h.tours.mem_floor h.planar]
      exact ⟨Y, hcY, d, hd, d1, rfl, rfl, by omega, by omega, by omega⟩
    · exact hsp
    · have hd2 := d2.low
      rw [← ht_ends (s := s) ta tb, ← ta] at hd2
      exact hd2
    · intro f hf sf lf
      obtain ⟨Z, oz, e, he, e1, e2, e3, -⟩ := (h.tours.mem_floor h.planar _ _ _).1 hf
      rw [spans_ends e2 e3, ta] at sf
      rw [ht_ends (s := s) ta tb, ht_ends e2 e3, ta] at lf
      rcases d2.first e.s (h.tours.edge oz.mem.1 he) sf lf with k | k
      · left
        obtain ⟨rfl, rfl⟩ := h.tours.dart_eq h.planar oz.mem.1 hY he hd k
        have hcc := oz.unique (h.tours.found_nodup h.planar) hcY
        obtain ⟨fa, fb, fc⟩ := f
        simp only at e2 e3 hcc
        rw [e2, e3, hcc]
      · right
        rw [← ta] at k
        rw [ht_ends e2 e3]
        exact k
  · intro hm
    have hYh := hcY.mem.2.trans hm
    obtain ⟨u, -, u1, -, -, -, -⟩ := h.tours.anchor h.planar h3 hY hYh
    refine ⟨⟨u.s.a, u.s.b, c⟩, (h.tours.mem_anchors h.planar h3 _).2 ⟨hm, Y, hcY, u, u1, rfl, rfl⟩, rfl, ?_⟩
    exact (before_ends (s := (⟨u.s.a, u.s.b, c⟩ : IdSeg)) (t := s) (s' := u.s) (t' := t.s) rfl rfl ta tb).2 (d4 hYh u u1)

/-- Every hole has an outer contour with the same result side. -/
theorem RunTours.parent : ∀ H ∈ fs, H.hole = true → ∃ O ∈ fs, O.hole = false ∧
    ∀ X ∈ fs, depth clockwise (segs.map Seg.key) X H = depth clockwise (segs.map Seg.key) X O := by
  have hb := h.tours.bindInput h.planar h3 0 0
  have hperm := addSortByAngle_perm (anchorSegs clockwise ((hls fs).map Found.raw) 0)
  have key := sorted_induct (fun s hs => hb.lt (List.mem_append_right _ (hperm.mem_iff.1 hs))) (h.anchors_before h3)
    (fun s => ∀ H, Owner fs s.c H → ∃ O ∈ fs, O.hole = false ∧
      ∀ X ∈ fs, depth clockwise (segs.map Seg.key) X H = depth clockwise (segs.map Seg.key) X O) (by
    intro s hs ih H ho
    obtain ⟨m, Y, m1, -, m2, m3⟩ := h.target h3 honce ho (hperm.mem_iff.1 hs) (le_refl _) (le_refl _)
    cases hm : m.c.hole
    · exact ⟨Y, m1.mem.1, m1.mem.2.trans hm, m2⟩
    · obtain ⟨t, t1, t2, t3⟩ := m3 hm
      obtain ⟨O, o1, o2, o3⟩ := ih t (hperm.mem_iff.2 t1) t3 Y (by rw [t2]; exact m1)
      exact ⟨O, o1, o2, fun X hX => (m2 X hX).trans (o3 X hX)⟩)
  intro H hH hh
  obtain ⟨c, hc⟩ := Owner.exists hH
  obtain ⟨t, -, t1, -⟩ := h.tours.anchor h.planar h3 hH hh
  refine key ⟨t.s.a, t.s.b, c⟩ (hperm.mem_iff.2 ((h.tours.mem_anchors h.planar h3 _).2 ?_)) H hc
  exact ⟨hc.mem.2.symm.trans hh, H, hc, t, t1, rfl, rfl⟩

/-- The sweep finds the shape around every hole. -/
theorem RunTours.bind {o : BindOracle} (hok : o.Ok) {sortI : List IdSeg → List IdSeg} (hs : SortsByA sortI)
    (hn : outs fs ≠ []) {x0 x1 : Int}
    (hx : ∀ s ∈ anchorSegs clockwise ((hls fs).map Found.raw) 0, x0 ≤ s.a.x ∧ s.a.x ≤ x1) :
    ∃ ps, bindSolve o (outs fs).length (addSortByAngle (anchorSegs clockwise ((hls fs).map Found.raw) 0))
        (sortI (floorSegments ((outs fs).map fun f => [f.raw]) ((hls fs).map Found.raw) x0 x1 clockwise)) = some ps ∧
      ps.length = (hls fs).length ∧
      ∀ (i : Nat) (H : Found), (hls fs)[i]? = some H → ∃ (p : Nat) (O : Found), ps[i]? = some p ∧ (outs fs)[p]? = some O ∧
        ∀ X ∈ fs, depth clockwise (segs.map Seg.key) X H = depth clockwise (segs.map Seg.key) X O := by
  have hb := h.tours.bindInput h.planar h3 x0 x1
  have hbef := h.anchors_before h3
  have hperm := addSortByAngle_perm (anchorSegs clockwise ((hls fs).map Found.raw) 0)
  have hidx := h.tours.anchors_index h.planar h3
  have htgt := fun (s : IdSeg) (H : Found) (ho : Owner fs s.c H) (hsm : s ∈ anchorSegs clockwise ((hls fs).map Found.raw) 0) =>
    h.target h3 honce ho hsm (hx s hsm).1 (hx s hsm).2
  have hmem := h.tours.mem_anchors h.planar h3
  generalize hfl : floorSegments ((outs fs).map fun f => [f.raw]) ((hls fs).map Found.raw) x0 x1 clockwise = floor at *
  generalize hA0 : anchorSegs clockwise ((hls fs).map Found.raw) 0 = A0 at *
  generalize hA : addSortByAngle A0 = A at *
  have hlt : ∀ s ∈ A, s.a < s.b := fun s hsm => hb.lt (List.mem_append_right _ (hperm.mem_iff.1 hsm))
  have hlen : A.length = (hls fs).length := by
    rw [hperm.length_eq, ← List.length_map (as := A0) (f := fun s : IdSeg => s.c.index), hidx, List.length_range]
  have hidxA : (A.map (·.c.index)).Perm (List.range A.length) := by
    rw [hlen, ← hidx]; exact hperm.map _
  have hndA : (A.map (·.c.index)).Nodup := hidxA.nodup_iff.2 List.nodup_range
  have howner : ∀ s ∈ A, ∃ H, Owner fs s.c H := by
    intro s hsm
    obtain ⟨-, H, ho, -⟩ := (hmem s).1 (hperm.mem_iff.1 hsm)
    exact ⟨H, ho⟩
  have hcA : ∀ s ∈ A, s.c.hole = true := fun s hsm => ((hmem s).1 (hperm.mem_iff.1 hsm)).1
  obtain ⟨ps, p1, p2, p3, p4, p5⟩ := bindLoop_first hb hok (hs floor).1 ((hs floor).2 fun s hsm => hb.lt (List.mem_append_left _ hsm))
    (outs fs).length A [] (sortI floor) [] (List.replicate A.length 0)
    (fun s hsm => hperm.mem_iff.1 hsm)
    (by
      refine hbef.imp_of_mem ?_
      intro x y hxm hym hxy hgt
      exact before_irrefl _ (before_trans (hlt x hxm) (hlt y hym) (hlt x hxm) hxy (cmp_gt_iff.1 hgt)))
    hndA
    (by
      intro s hsm
      rw [List.length_replicate]
      exact List.mem_range.1 (hidxA.mem_iff.1 (List.mem_map_of_mem hsm)))
    (by
      intro p hp
      rw [List.eq_of_mem_replicate hp]
      exact List.length_pos_iff.2 hn)
    ⟨by simp, by simp, by simp, by simp⟩
    (by
      intro l s r he
      have hsA : s ∈ A := by rw [he]; simp
      obtain ⟨H, ho⟩ := howner s hsA
      obtain ⟨m, Y, m1, m2, -, m3⟩ := htgt s H ho (hperm.mem_iff.1 hsA)
      refine ⟨m, m2, ?_, ?_⟩
      · intro hm
        unfold Owner at m1
        rw [hm] at m1
        exact (List.getElem?_eq_some_iff.1 m1).1
      · intro hm
        obtain ⟨t, t1, t2, t3⟩ := m3 hm
        have htA := hperm.mem_iff.2 t1
        rw [List.length_replicate, ← t2]
        refine ⟨List.mem_range.1 (hidxA.mem_iff.1 (List.mem_map_of_mem htA)), ?_⟩
        intro hc
        obtain ⟨t', ht', e⟩ := List.mem_map.1 hc
        have htt : t' = t := List.inj_on_of_nodup_map hndA (by rw [he]; exact List.mem_append_right _ ht') htA e
        subst htt
        rcases List.mem_cons.1 ht' with rfl | ht'
        · exact before_irrefl _ t3
        · rw [he] at hbef
          have := (List.pairwise_cons.1 (List.pairwise_append.1 hbef).2.1).1 t' ht'
          exact before_irrefl _ (before_trans (hlt t' htA) (hlt s hsA) (hlt t' htA) t3 this))
  rw [List.length_replicate] at p2
  refine ⟨ps, p1, p2.trans hlen, ?_⟩
  have key := sorted_induct hlt hbef (fun s => ∀ H, Owner fs s.c H → ∃ p O, ps[s.c.index]? = some p ∧
      (outs fs)[p]? = some O ∧
      ∀ X ∈ fs, depth clockwise (segs.map Seg.key) X H = depth clockwise (segs.map Seg.key) X O) (by
    intro s hsA ih H ho
    obtain ⟨m, Y, m1, m2, m4, m3⟩ := htgt s H ho (hperm.mem_iff.1 hsA)
    have hps := p5 s hsA m m2
    cases hm : m.c.hole
    · rw [hm] at hps
      simp only [Bool.false_eq_true, if_false] at hps
      unfold Owner at m1
      rw [hm] at m1
      exact ⟨m.c.index, Y, hps, m1, m4⟩
    · rw [hm] at hps
      simp only [if_true] at hps
      obtain ⟨t, t1, t2, t3⟩ := m3 hm
      obtain ⟨p, O, o1, o2, o3⟩ := ih t (hperm.mem_iff.2 t1) t3 Y (by rw [t2]; exact m1)
      rw [t2] at o1
      exact ⟨p, O, hps.trans o1, o2, fun X hX => (m4 X hX).trans (o3 X hX)⟩)
  intro i H hi
  have ho : Owner fs ⟨true, i⟩ H := hi
  obtain ⟨t, -, t1, -⟩ := h.tours.anchor h.planar h3 ho.mem.1 ho.mem.2
  exact key ⟨t.s.a, t.s.b, ⟨true, i⟩⟩ (hperm.mem_iff.2 ((hmem _).2 ⟨rfl, H, ho, t, t1, rfl, rfl⟩)) H ho

end

end IOverlay
