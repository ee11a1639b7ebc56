/-
Contours meeting in common ends only: attaching holes needs nothing but their winding numbers. C43.
-/
import Verif.Binding

namespace IOverlay

/-- Two directed edges are different segments and meet in common ends only. -/
def Apart (e f : Pt × Pt) : Prop := MeetAtEnds e.1 e.2 f.1 f.2 ∧ e ≠ f ∧ e ≠ f.swap

/-- No edge is a point; the edges of all contours taken together are different segments meeting in common ends only. -/
def EdgesApart (cs : List (List Pt)) : Prop :=
  (∀ e ∈ cs.flatMap polyEdges, e.1 ≠ e.2) ∧ (cs.flatMap polyEdges).Pairwise Apart

theorem Apart.symm {e f : Pt × Pt} (h : Apart e f) : Apart f e :=
  ⟨fun q a b => (h.1 q b a).symm, fun k => h.2.1 k.symm, fun k => h.2.2 (by rw [k, Prod.swap_swap])⟩

theorem EdgesApart.perm {l l' : List (List Pt)} (h : EdgesApart l) (hp : l.Perm l') : EdgesApart l' := by
  have hf : (l.flatMap polyEdges).Perm (l'.flatMap polyEdges) := hp.flatMap_right _
  refine ⟨fun e he => h.1 e (hf.mem_iff.2 he), ?_⟩
  exact (List.Perm.pairwise_iff (fun {a b} h => h.symm) hf).1 h.2

/-- The edges of the contours, in the order of the sweep. -/
def ringEdges (cs : List (List Pt)) : List Edge := sortSegs ((cs.flatMap polyEdges).map fun e => (dartOf e).s)

theorem dartOf_lt {e : Pt × Pt} (h : e.1 ≠ e.2) : (dartOf e).s.a < (dartOf e).s.b := by
  unfold dartOf
  rcases Pt.lt_tri e.1 e.2 with c | c | c
  · rw [if_pos c]; exact c
  · exact absurd c h
  · rw [if_neg (Pt.lt_asymm c)]; exact c

theorem dartOf_key (e : Pt × Pt) : (dartOf e).s.c = ((dartOf e).s.a, (dartOf e).s.b) := by
  unfold dartOf; split <;> rfl

theorem mem_ringEdges {cs : List (List Pt)} {s : Edge} : s ∈ ringEdges cs ↔ ∃ c ∈ cs, ∃ e ∈ polyEdges c, (dartOf e).s = s := by
  unfold ringEdges
  rw [(sortSegs_perm _).mem_iff, List.mem_map]
  constructor
  · rintro ⟨e, he, rfl⟩
    obtain ⟨c, hc, he⟩ := List.mem_flatMap.1 he
    exact ⟨c, hc, e, he, rfl⟩
  · rintro ⟨c, hc, e, he, rfl⟩
    exact ⟨e, List.mem_flatMap.2 ⟨c, hc, he⟩, rfl⟩

theorem keyed_ring (cs : List (List Pt)) : Keyed (ringEdges cs) := by
  intro s hs
  obtain ⟨c, -, e, -, rfl⟩ := mem_ringEdges.1 hs
  exact dartOf_key e

theorem onSeg_swap {p : QPt} {a b : Pt} : onSeg p a b ↔ onSeg p b a := ⟨onSeg_symm, onSeg_symm⟩

theorem meet_dart {e f : Pt × Pt} (h : MeetAtEnds e.1 e.2 f.1 f.2) :
    MeetAtEnds (dartOf e).s.a (dartOf e).s.b (dartOf f).s.a (dartOf f).s.b := by
  intro q hq hq'
  have h1 : onSeg q e.1 e.2 ∧ ((q = (dartOf e).s.a.q ∨ q = (dartOf e).s.b.q) ↔ (q = e.1.q ∨ q = e.2.q)) := by
    unfold dartOf at hq ⊢
    split at hq <;> split <;> first | contradiction | skip
    · exact ⟨hq, Iff.rfl⟩
    · exact ⟨onSeg_swap.1 hq, or_comm⟩
  have h2 : onSeg q f.1 f.2 ∧ ((q = (dartOf f).s.a.q ∨ q = (dartOf f).s.b.q) ↔ (q = f.1.q ∨ q = f.2.q)) := by
    unfold dartOf at hq' ⊢
    split at hq' <;> split <;> first | contradiction | skip
    · exact ⟨hq', Iff.rfl⟩
    · exact ⟨onSeg_swap.1 hq', or_comm⟩
  have := h q h1.1 h2.1
  exact ⟨h1.2.2 this.1, h2.2.2 this.2⟩

theorem apart_dart {e f : Pt × Pt} (h : Apart e f) : ¬ ((dartOf e).s.a = (dartOf f).s.a ∧ (dartOf e).s.b = (dartOf f).s.b) := by
  rintro ⟨ha, hb⟩
  rcases dartOf_cases e with c | c <;> rcases dartOf_cases f with c' | c'
  · exact h.2.1 (by rw [c, c', ha, hb])
  · exact h.2.2 (by rw [c, c', ha, hb]; rfl)
  · exact h.2.2 (by rw [c, c', ha, hb]; rfl)
  · exact h.2.1 (by rw [c, c', ha, hb])

theorem planar_ring {cs : List (List Pt)} (h : EdgesApart cs) : Planar (ringEdges cs) := by
  have hpw : (ringEdges cs).Pairwise fun s t => MeetAtEnds s.a s.b t.a t.b ∧ ¬ (s.a = t.a ∧ s.b = t.b) := by
    unfold ringEdges
    refine (List.Perm.pairwise_iff (fun {s t} k => ⟨fun q a b => (k.1 q b a).symm, fun c => k.2 ⟨c.1.symm, c.2.symm⟩⟩)
      (sortSegs_perm _)).2 ?_
    rw [List.pairwise_map]
    exact h.2.imp fun {e f} k => ⟨meet_dart k.1, apart_dart k⟩
  refine ⟨?_, ?_, ?_⟩
  · intro s hs
    obtain ⟨c, hc, e, he, rfl⟩ := mem_ringEdges.1 hs
    exact dartOf_lt (h.1 e (List.mem_flatMap.2 ⟨c, hc, he⟩))
  · have hs : SortedSegs (ringEdges cs) := sortSegs_sorted _
    refine (List.Pairwise.and (show List.Pairwise _ _ from hs) hpw).imp ?_
    rintro s t ⟨h1, -, h2⟩
    exact (Seg.le_iff.1 h1).resolve_right h2
  · exact hpw.imp fun k => k.1

/-- Contours with edges meeting in common ends only: outer contours and holes turn in opposite directions, wind around
points at most once, are nested in each other, and all together wind at most once; every hole passes through its leftmost
vertex once. -/
structure Rings (cw : Bool) (outer holes : List (List Pt)) : Prop where
  apart : EdgesApart (outer ++ holes)
  ne : ∀ c ∈ outer ++ holes, c ≠ []
  turn_outer : ∀ c ∈ outer, WindsOnce (outerTurn cw) c
  turn_holes : ∀ c ∈ holes, WindsOnce (- outerTurn cw) c
  total : ∀ q, polysWind (outer ++ holes) q = 0 ∨ polysWind (outer ++ holes) q = outerTurn cw
  nested : (outer ++ holes).Pairwise Nested
  once : ∀ H ∈ holes, LeftmostOnce H

/-- Every contour has the same winding number on the filled sides of the two contours. -/
def SameRing (cw : Bool) (cs : List (List Pt)) (H Y : List Pt) : Prop :=
  ∀ X ∈ cs, ∀ e ∈ polyEdges H, ∀ f ∈ polyEdges Y,
    hug (!cw) (stepFlow (polyEdges X)) (ringEdges cs) (dartOf e) = hug (!cw) (stepFlow (polyEdges X)) (ringEdges cs) (dartOf f)

theorem leftmost_unique {H : List Pt} (h : LeftmostOnce H) {v : Pt} (hv : ∀ p ∈ H, ¬ p < v) {e f : Pt × Pt}
    (he : e ∈ polyEdges H) (hf : f ∈ polyEdges H) : (e.1 = v → f.1 = v → e = f) ∧ (e.2 = v → f.2 = v → e = f) := by
  have gen : ∀ (g : Pt × Pt → Pt), ((polyEdges H).map g).Perm H → g e = v → g f = v → e = f := by
    intro g hg h1 h2
    by_contra hne
    have hm : v ∈ H := by rw [← hg.mem_iff, ← h1]; exact List.mem_map_of_mem he
    have hc := h v hm hv
    rw [← hg.count_eq] at hc
    have h3 : 2 ≤ ((polyEdges H).map g).count v := by
      have hsub : List.Sublist [e, f] (polyEdges H) ∨ List.Sublist [f, e] (polyEdges H) := by
        obtain ⟨l1, l2, hl⟩ := List.append_of_mem he
        rw [hl] at hf ⊢
        rcases List.mem_append.1 hf with k | k
        · right
          exact (List.singleton_sublist.2 k).append (List.singleton_sublist.2 List.mem_cons_self)
        · left
          have k := (List.mem_cons.1 k).resolve_left (fun k => hne k.symm)
          exact (List.Sublist.cons_cons e (List.singleton_sublist.2 k)).trans (List.sublist_append_right _ _)
      rcases hsub with k | k
      · have := (k.map g).count_le v
        simp only [List.map_cons, List.map_nil, h1, h2] at this
        simpa using this
      · have := (k.map g).count_le v
        simp only [List.map_cons, List.map_nil, h1, h2] at this
        simpa using this
    omega
  refine ⟨gen Prod.fst ?_, gen Prod.snd (polyEdges_snd H)⟩
  have := polyEdges_fst H
  exact List.Perm.of_eq this

section
variable {cw : Bool} {outer holes : List (List Pt)} (h : Rings cw outer holes)
include h

theorem Rings.planar : Planar (ringEdges (outer ++ holes)) := planar_ring h.apart

omit h in
theorem ring_mem {cs : List (List Pt)} {c : List Pt} (hc : c ∈ cs) {e : Pt × Pt} (he : e ∈ polyEdges c) :
    (dartOf e).s ∈ ringEdges cs := mem_ringEdges.2 ⟨c, hc, e, he, rfl⟩

theorem Rings.all_nodup : ((outer ++ holes).flatMap polyEdges).Nodup := h.apart.2.imp fun k => k.2.1

theorem Rings.no_swap {e : Pt × Pt} (he : e ∈ (outer ++ holes).flatMap polyEdges) : e.swap ∉ (outer ++ holes).flatMap polyEdges := by
  intro hs
  have hne : e ≠ e.swap := fun k => h.apart.1 e he (congrArg Prod.fst k)
  have hsy : Std.Symm fun a b : Pt × Pt => Apart a b := ⟨fun _ _ h => h.symm⟩
  exact (List.Pairwise.forall h.apart.2 he hs hne).2.2 (by rw [Prod.swap_swap])

theorem Rings.owner {X Y : List Pt} (hX : X ∈ outer ++ holes) (hY : Y ∈ outer ++ holes) {e : Pt × Pt}
    (h1 : e ∈ polyEdges X) (h2 : e ∈ polyEdges Y) : X = Y := nodup_owner h.all_nodup hX hY h1 h2

theorem Rings.edge {X : List Pt} (hX : X ∈ outer ++ holes) : ∃ e, e ∈ polyEdges X := exists_edge (h.ne X hX)

theorem Rings.nodup : (outer ++ holes).Nodup := by
  refine List.Pairwise.imp_of_mem (R := fun X Y => List.Disjoint (polyEdges X) (polyEdges Y)) (fun {X Y} hX _ hd => ?_)
    (List.nodup_flatMap.1 h.all_nodup).2
  rintro rfl
  obtain ⟨e, he⟩ := h.edge hX
  exact hd he he

theorem Rings.closed {X : List Pt} (hX : X ∈ outer ++ holes) : Closed (stepFlow (polyEdges X)) (ringEdges (outer ++ holes)) :=
  loop_closed h.planar (keyed_ring _) fun _ he => ring_mem hX he

theorem Rings.wind {X : List Pt} (hX : X ∈ outer ++ holes) (q : QPt) :
    segsWind (stepFlow (polyEdges X)) (ringEdges (outer ++ holes)) q = polyWind X q :=
  stepFlow_wind h.planar (keyed_ring _) (fun _ he => ring_mem hX he) q

theorem Rings.flux_own {X : List Pt} (hX : X ∈ outer ++ holes) {e : Pt × Pt} (he : e ∈ polyEdges X) :
    flux (stepFlow (polyEdges X)) (dartOf e) = 1 := by
  rw [stepFlow_flux h.planar (keyed_ring _) (fun _ he => ring_mem hX he) (ring_mem hX he)]
  have h1 : (polyEdges X).count e = 1 := List.count_eq_one_of_mem ((List.nodup_flatMap.1 h.all_nodup).1 X hX) he
  have h2 : (polyEdges X).count e.swap = 0 := List.count_eq_zero.2 fun k =>
    h.no_swap (List.mem_flatMap.2 ⟨X, hX, he⟩) (List.mem_flatMap.2 ⟨X, hX, k⟩)
  rw [h1, h2]; rfl

theorem Rings.flux_other {X Y : List Pt} (hX : X ∈ outer ++ holes) (hY : Y ∈ outer ++ holes) (hne : X ≠ Y) {e : Pt × Pt}
    (he : e ∈ polyEdges X) : flux (stepFlow (polyEdges Y)) (dartOf e) = 0 := by
  rw [stepFlow_flux h.planar (keyed_ring _) (fun _ he => ring_mem hY he) (ring_mem hX he)]
  have h1 : (polyEdges Y).count e = 0 := List.count_eq_zero.2 fun k => hne (h.owner hX hY he k)
  have h2 : (polyEdges Y).count e.swap = 0 := List.count_eq_zero.2 fun k =>
    h.no_swap (List.mem_flatMap.2 ⟨X, hX, he⟩) (List.mem_flatMap.2 ⟨Y, hY, k⟩)
  rw [h1, h2]; rfl

theorem Rings.own {X : List Pt} (hX : X ∈ outer ++ holes) {e : Pt × Pt} (he : e ∈ polyEdges X) :
    hug (!cw) (stepFlow (polyEdges X)) (ringEdges (outer ++ holes)) (dartOf e) =
      far (!cw) (stepFlow (polyEdges X)) (ringEdges (outer ++ holes)) (dartOf e) + outerTurn cw := by
  have := hug_far (!cw) (stepFlow (polyEdges X)) (ringEdges (outer ++ holes)) (dartOf e)
  rw [h.flux_own hX he, outerTurn_side] at this
  omega

theorem Rings.other {X Y : List Pt} (hX : X ∈ outer ++ holes) (hY : Y ∈ outer ++ holes) (hne : X ≠ Y) {e : Pt × Pt}
    (he : e ∈ polyEdges X) :
    hug (!cw) (stepFlow (polyEdges Y)) (ringEdges (outer ++ holes)) (dartOf e) =
      far (!cw) (stepFlow (polyEdges Y)) (ringEdges (outer ++ holes)) (dartOf e) := by
  have := hug_far (!cw) (stepFlow (polyEdges Y)) (ringEdges (outer ++ holes)) (dartOf e)
  rw [h.flux_other hX hY hne he] at this
  omega

/-- Points on both sides of an edge, seen by two contours. -/
theorem Rings.points {X Y Z : List Pt} (hX : X ∈ outer ++ holes) (hY : Y ∈ outer ++ holes) (hZ : Z ∈ outer ++ holes) {e : Pt × Pt}
    (he : e ∈ polyEdges Z) :
    (∃ q, polyWind X q = hug (!cw) (stepFlow (polyEdges X)) (ringEdges (outer ++ holes)) (dartOf e) ∧
      polyWind Y q = hug (!cw) (stepFlow (polyEdges Y)) (ringEdges (outer ++ holes)) (dartOf e)) ∧
    ∃ q, polyWind X q = far (!cw) (stepFlow (polyEdges X)) (ringEdges (outer ++ holes)) (dartOf e) ∧
      polyWind Y q = far (!cw) (stepFlow (polyEdges Y)) (ringEdges (outer ++ holes)) (dartOf e) := by
  obtain ⟨q, q1, q2⟩ := hug_values h.planar (keyed_ring _) (!cw) (h.closed hX) (h.closed hY) (ring_mem hZ he)
  obtain ⟨p, p1, p2⟩ := far_values h.planar (keyed_ring _) (!cw) (h.closed hX) (h.closed hY) (ring_mem hZ he)
  rw [h.wind hX] at q1 p1
  rw [h.wind hY] at q2 p2
  exact ⟨⟨q, q1, q2⟩, p, p1, p2⟩

theorem Rings.own_outer {X : List Pt} (hX : X ∈ outer) {e : Pt × Pt} (he : e ∈ polyEdges X) :
    hug (!cw) (stepFlow (polyEdges X)) (ringEdges (outer ++ holes)) (dartOf e) = outerTurn cw ∧
    far (!cw) (stepFlow (polyEdges X)) (ringEdges (outer ++ holes)) (dartOf e) = 0 := by
  have hm : X ∈ outer ++ holes := List.mem_append_left _ hX
  obtain ⟨⟨q, q1, -⟩, p, p1, -⟩ := h.points hm hm hm he
  have h1 := (h.turn_outer X hX).1 q
  have h2 := (h.turn_outer X hX).1 p
  have h3 := h.own hm he
  have := outerTurn_ne cw
  rw [q1] at h1
  rw [p1] at h2
  rcases h1 with h1 | h1 <;> rcases h2 with h2 | h2 <;> rw [h1, h2] at h3
  · omega
  · exfalso
    revert h3; cases cw <;> simp [outerTurn]
  · exact ⟨h1, h2⟩
  · omega

theorem Rings.own_hole {X : List Pt} (hX : X ∈ holes) {e : Pt × Pt} (he : e ∈ polyEdges X) :
    hug (!cw) (stepFlow (polyEdges X)) (ringEdges (outer ++ holes)) (dartOf e) = 0 ∧
    far (!cw) (stepFlow (polyEdges X)) (ringEdges (outer ++ holes)) (dartOf e) = - outerTurn cw := by
  have hm : X ∈ outer ++ holes := List.mem_append_right _ hX
  obtain ⟨⟨q, q1, -⟩, p, p1, -⟩ := h.points hm hm hm he
  have h1 := (h.turn_holes X hX).1 q
  have h2 := (h.turn_holes X hX).1 p
  have h3 := h.own hm he
  have := outerTurn_ne cw
  rw [q1] at h1
  rw [p1] at h2
  rcases h1 with h1 | h1 <;> rcases h2 with h2 | h2 <;> rw [h1, h2] at h3
  · omega
  · exact ⟨h1, h2⟩
  · exfalso
    revert h3; cases cw <;> simp [outerTurn]
  · omega

theorem Rings.outer_ne_hole {X Y : List Pt} (hX : X ∈ outer) (hY : Y ∈ holes) : X ≠ Y :=
  (List.nodup_append.1 h.nodup).2.2 X hX Y hY

/-- On one side of its edges a contour winds, on the other it does not. -/
theorem Rings.one_side {X : List Pt} (hX : X ∈ outer ++ holes) :
    (∀ e ∈ polyEdges X, hug (!cw) (stepFlow (polyEdges X)) (ringEdges (outer ++ holes)) (dartOf e) = outerTurn cw ∧
      far (!cw) (stepFlow (polyEdges X)) (ringEdges (outer ++ holes)) (dartOf e) = 0) ∨
    (∀ e ∈ polyEdges X, hug (!cw) (stepFlow (polyEdges X)) (ringEdges (outer ++ holes)) (dartOf e) = 0 ∧
      far (!cw) (stepFlow (polyEdges X)) (ringEdges (outer ++ holes)) (dartOf e) = - outerTurn cw) := by
  rcases List.mem_append.1 hX with hX | hX
  · exact Or.inl fun e he => h.own_outer hX he
  · exact Or.inr fun e he => h.own_hole hX he

theorem Rings.nested_of {X Y : List Pt} (hX : X ∈ outer ++ holes) (hY : Y ∈ outer ++ holes) (hne : X ≠ Y) : Nested X Y := by
  have hsy : Std.Symm fun a b : List Pt => Nested a b := ⟨fun _ _ h => h.symm⟩
  exact List.Pairwise.forall h.nested hX hY hne

/-- Every contour has one winding number along the filled side of every contour. -/
theorem Rings.const {X Y : List Pt} (hX : X ∈ outer ++ holes) (hY : Y ∈ outer ++ holes) {e f : Pt × Pt}
    (he : e ∈ polyEdges Y) (hf : f ∈ polyEdges Y) :
    hug (!cw) (stepFlow (polyEdges X)) (ringEdges (outer ++ holes)) (dartOf e) =
      hug (!cw) (stepFlow (polyEdges X)) (ringEdges (outer ++ holes)) (dartOf f) := by
  by_cases hne : Y = X
  · subst hne
    rcases h.one_side hX with k | k
    · rw [(k e he).1, (k f hf).1]
    · rw [(k e he).1, (k f hf).1]
  · have hot := outerTurn_ne cw
    -- values of `X` are 0 or `t`
    obtain ⟨t, ht0, ht⟩ : ∃ t : Int, t ≠ 0 ∧ ∀ q, polyWind X q = 0 ∨ polyWind X q = t := by
      rcases List.mem_append.1 hX with k | k
      · exact ⟨_, hot, (h.turn_outer X k).1⟩
      · exact ⟨_, by omega, (h.turn_holes X k).1⟩
    have key : ∀ e ∈ polyEdges Y, ∀ f ∈ polyEdges Y,
        hug (!cw) (stepFlow (polyEdges X)) (ringEdges (outer ++ holes)) (dartOf e) ≠ 0 →
        hug (!cw) (stepFlow (polyEdges X)) (ringEdges (outer ++ holes)) (dartOf f) = 0 → False := by
      intro e he f hf h1 h2
      obtain ⟨⟨q, q1, q2⟩, p, p1, p2⟩ := h.points hX hY hY he
      obtain ⟨⟨q', q1', q2'⟩, p', p1', p2'⟩ := h.points hX hY hY hf
      rw [← h.other hY hX hne he] at p1
      rw [← h.other hY hX hne hf, h2] at p1'
      rw [h2] at q1'
      -- a point in both, one only in `X`, one only in `Y`
      have w : (∃ q, polyWind X q ≠ 0 ∧ polyWind Y q ≠ 0) ∧ (∃ q, polyWind X q ≠ 0 ∧ polyWind Y q = 0) ∧
          ∃ q, polyWind X q = 0 ∧ polyWind Y q ≠ 0 := by
        rcases h.one_side hY with k | k
        · rw [(k e he).1] at q2
          rw [(k e he).2] at p2
          rw [(k f hf).1] at q2'
          exact ⟨⟨q, by rw [q1]; exact h1, by rw [q2]; exact hot⟩, ⟨p, by rw [p1]; exact h1, p2⟩, ⟨q', q1', by rw [q2']; exact hot⟩⟩
        · rw [(k e he).1] at q2
          rw [(k e he).2] at p2
          rw [(k f hf).2] at p2'
          exact ⟨⟨p, by rw [p1]; exact h1, by rw [p2]; omega⟩, ⟨q, by rw [q1]; exact h1, q2⟩, ⟨p', p1', by rw [p2']; omega⟩⟩
      obtain ⟨⟨a, a1, a2⟩, ⟨b, b1, b2⟩, c, c1, c2⟩ := w
      rcases h.nested_of hX hY (fun k => hne k.symm) with k | k | k
      · exact a2 (k a a1)
      · exact k b b1 b2
      · exact k c c2 c1
    have val : ∀ e ∈ polyEdges Y, hug (!cw) (stepFlow (polyEdges X)) (ringEdges (outer ++ holes)) (dartOf e) = 0 ∨
        hug (!cw) (stepFlow (polyEdges X)) (ringEdges (outer ++ holes)) (dartOf e) = t := by
      intro e he
      obtain ⟨⟨q, q1, -⟩, -⟩ := h.points hX hY hY he
      rw [← q1]; exact ht q
    rcases val e he with a | a <;> rcases val f hf with b | b
    · rw [a, b]
    · exact (key f hf e he (by rw [b]; exact ht0) a).elim
    · exact (key e he f hf (by rw [a]; exact ht0) b).elim
    · rw [a, b]

/-- The filled side of every edge is inside all contours taken together, the other side is outside. -/
theorem Rings.full {X : List Pt} (hX : X ∈ outer ++ holes) {e : Pt × Pt} (he : e ∈ polyEdges X) :
    hug (!cw) (stepFlow ((outer ++ holes).flatMap polyEdges)) (ringEdges (outer ++ holes)) (dartOf e) = outerTurn cw ∧
    far (!cw) (stepFlow ((outer ++ holes).flatMap polyEdges)) (ringEdges (outer ++ holes)) (dartOf e) = 0 := by
  have hmem : ∀ e ∈ (outer ++ holes).flatMap polyEdges, (dartOf e).s ∈ ringEdges (outer ++ holes) := by
    intro e he
    obtain ⟨c, hc, he⟩ := List.mem_flatMap.1 he
    exact ring_mem hc he
  have hcl := stepFlow_closed h.planar (keyed_ring _) hmem (polysEdges_sum _)
  have hall := List.mem_flatMap.2 ⟨X, hX, he⟩
  obtain ⟨q, q1, -⟩ := hug_values h.planar (keyed_ring _) (!cw) hcl hcl (ring_mem hX he)
  obtain ⟨p, p1, -⟩ := far_values h.planar (keyed_ring _) (!cw) hcl hcl (ring_mem hX he)
  rw [stepFlow_wind h.planar (keyed_ring _) hmem, ← polysWind_steps] at q1 p1
  have h1 := h.total q
  have h2 := h.total p
  have h3 := hug_far (!cw) (stepFlow ((outer ++ holes).flatMap polyEdges)) (ringEdges (outer ++ holes)) (dartOf e)
  rw [stepFlow_flux h.planar (keyed_ring _) hmem (ring_mem hX he), List.count_eq_one_of_mem h.all_nodup hall,
    List.count_eq_zero.2 (h.no_swap hall), outerTurn_side, ← q1, ← p1] at h3
  rw [← q1, ← p1]
  have := outerTurn_ne cw
  rcases h1 with h1 | h1 <;> rcases h2 with h2 | h2 <;> rw [h1, h2] at h3
  · simp at h3; omega
  · exfalso
    revert h3; cases cw <;> simp [outerTurn]
  · exact ⟨h1, h2⟩
  · simp at h3; omega

theorem Rings.same_of {H Y : List Pt} (hH : H ∈ outer ++ holes) (hY : Y ∈ outer ++ holes) {e f : Pt × Pt}
    (he : e ∈ polyEdges H) (hf : f ∈ polyEdges Y)
    (hs : ∀ X ∈ outer ++ holes, hug (!cw) (stepFlow (polyEdges X)) (ringEdges (outer ++ holes)) (dartOf e) =
      hug (!cw) (stepFlow (polyEdges X)) (ringEdges (outer ++ holes)) (dartOf f)) : SameRing cw (outer ++ holes) H Y := by
  intro X hX e' he' f' hf'
  rw [h.const hX hH he' he, h.const hX hY hf' hf]
  exact hs X hX

theorem Rings.surround {H : List Pt} (hH : H ∈ outer ++ holes) {e : Pt × Pt} (he : e ∈ polyEdges H)
    (hfw : (dartOf e).fwd = cw) (hx : (dartOf e).s.a.x < (dartOf e).s.b.x) :
    ∃ Y ∈ outer ++ holes, ∃ f ∈ polyEdges Y, (dartOf f).fwd = (!cw) ∧
      FirstBelow (fun g => g ∈ ringEdges (outer ++ holes) ∧ ∃ c ∈ outer ++ holes, ∃ k ∈ polyEdges c, (dartOf k).s = g)
        (dartOf e).s (dartOf f).s ∧ SameRing cw (outer ++ holes) H Y := by
  have hp := h.planar
  have heE := ring_mem hH he
  have hmem : ∀ e ∈ (outer ++ holes).flatMap polyEdges, (dartOf e).s ∈ ringEdges (outer ++ holes) := by
    intro e he
    obtain ⟨c, hc, he⟩ := List.mem_flatMap.1 he
    exact ring_mem hc he
  have hcl := stepFlow_closed hp (keyed_ring _) hmem (polysEdges_sum _)
  have hbelow : ∀ (φ : Pt × Pt → Int), hug (!cw) φ (ringEdges (outer ++ holes)) (dartOf e) =
      botW φ (ringEdges (outer ++ holes)) (dartOf e).s := by
    intro φ
    unfold hug
    rw [hfw]; cases cw <;> simp
  have hb0 : botW (stepFlow ((outer ++ holes).flatMap polyEdges)) (ringEdges (outer ++ holes)) (dartOf e).s = outerTurn cw := by
    rw [← hbelow]; exact (h.full hH he).1
  have hR : ∀ (φ : Pt × Pt → Int), ∀ f ∈ ringEdges (outer ++ holes),
      ¬ (∃ c ∈ outer ++ holes, ∃ k ∈ polyEdges c, (dartOf k).s = f) → φ f.c = 0 := fun φ f hf hn => absurd (mem_ringEdges.1 hf) hn
  obtain ⟨g, hg⟩ := hp.below_exists (R := fun g => ∃ c ∈ outer ++ holes, ∃ k ∈ polyEdges c, (dartOf k).s = g) (hR _) heE hx
    (by rw [hb0]; exact outerTurn_ne cw)
  have hsum : ∀ φ, Closed φ (ringEdges (outer ++ holes)) → botW φ (ringEdges (outer ++ holes)) (dartOf e).s =
      botW φ (ringEdges (outer ++ holes)) g + φ g.c := fun φ hφ => hp.below_sum hφ (hR φ) heE hx hg
  obtain ⟨Y, hY, f, hf, rfl⟩ := hg.mem.2
  have hfw' : (dartOf f).fwd = (!cw) := by
    by_contra hn
    have h1 := (h.full hY hf).2
    unfold far at h1
    rw [if_neg hn, ← hsum _ hcl, hb0] at h1
    exact outerTurn_ne cw h1
  refine ⟨Y, hY, f, hf, hfw', hg, h.same_of hH hY he hf fun X hX => ?_⟩
  rw [hbelow, hsum _ (h.closed hX)]
  unfold hug
  rw [if_pos hfw']

theorem Rings.anchor {H : List Pt} (hH : H ∈ holes) :
    ∃ e ∈ polyEdges H, leftBottomSegment H = some ((dartOf e).s.a, (dartOf e).s.b) ∧ (dartOf e).fwd = cw ∧
      (dartOf e).s.a.x < (dartOf e).s.b.x ∧ (∀ p ∈ H, ¬ p < (dartOf e).s.a) ∧
      ∀ f ∈ polyEdges H, (dartOf f).fwd = (!cw) → Before (dartOf e).s (dartOf f).s := by
  have hm : H ∈ outer ++ holes := List.mem_append_right _ hH
  exact low_anchor h.planar (keyed_ring _) (h.ne H hm) (fun e he => ring_mem hm he)
    (fun v hv e he f hf => leftmost_unique (h.once H hH) hv he hf)
    (fun e he k => h.no_swap (List.mem_flatMap.2 ⟨H, hm, he⟩) (List.mem_flatMap.2 ⟨H, hm, k⟩))
    (fun e he => h.flux_own hm he) (fun e he => (h.own_hole hH he).1)

theorem Rings.same_trans {H Y Z : List Pt} (hY : Y ∈ outer ++ holes) (h1 : SameRing cw (outer ++ holes) H Y)
    (h2 : SameRing cw (outer ++ holes) Y Z) : SameRing cw (outer ++ holes) H Z := by
  intro X hX e he f hf
  obtain ⟨g, hg⟩ := h.edge hY
  exact (h1 X hX e he g hg).trans (h2 X hX g hg f hf)

theorem Rings.bindable : Bindable cw (ringEdges (outer ++ holes)) outer holes (SameRing cw (outer ++ holes)) :=
  ⟨fun _ hc _ he => ring_mem hc he, h.nodup, fun _ hX _ hY _ => h.owner hX hY, fun _ _ _ hY => h.same_trans hY,
    fun _ hH => by
      obtain ⟨e, e1, e2, e3, e4, -, e5⟩ := h.anchor hH
      exact ⟨e, e1, e2, e3, e4, e5⟩, fun _ hH _ he => h.surround hH he⟩

/-- A hole with the same surroundings as the filled side of an outer contour lies in that contour. -/
theorem Rings.hole_inside {H O : List Pt} (hH : H ∈ holes) (hO : O ∈ outer) (hs : SameRing cw (outer ++ holes) H O)
    (q : QPt) (hq : polyWind H q ≠ 0) : polyWind O q ≠ 0 := by
  have hH' : H ∈ outer ++ holes := List.mem_append_right _ hH
  have hO' : O ∈ outer ++ holes := List.mem_append_left _ hO
  have hne : H ≠ O := (h.outer_ne_hole hO hH).symm
  obtain ⟨e, he⟩ := h.edge hH'
  obtain ⟨f, hf⟩ := h.edge hO'
  obtain ⟨⟨p1, a1, a2⟩, p2, b1, b2⟩ := h.points hH' hO' hH' he
  have hOe := (hs O hO' e he f hf).trans (h.own_outer hO hf).1
  rw [(h.own_hole hH he).1] at a1
  rw [hOe] at a2
  rw [(h.own_hole hH he).2] at b1
  rw [← h.other hH' hO' hne he, hOe] at b2
  have hn := outerTurn_ne cw
  rcases h.nested_of hH' hO' hne with k | k | k
  · exfalso
    have := k p2 (by rw [b1]; omega)
    rw [this] at b2
    omega
  · exact k q hq
  · exact absurd a1 (k p1 (by rw [a2]; exact hn))

/-- Two holes with the same surroundings do not overlap. -/
theorem Rings.holes_disjoint {H H' : List Pt} (hH : H ∈ holes) (hH' : H' ∈ holes) (hne : H ≠ H')
    (hs : SameRing cw (outer ++ holes) H H') (q : QPt) : polyWind H q = 0 ∨ polyWind H' q = 0 := by
  have m : H ∈ outer ++ holes := List.mem_append_right _ hH
  have m' : H' ∈ outer ++ holes := List.mem_append_right _ hH'
  obtain ⟨e, he⟩ := h.edge m
  obtain ⟨f, hf⟩ := h.edge m'
  have hn := outerTurn_ne cw
  obtain ⟨-, p1, a1, a2⟩ := h.points m m' m he
  obtain ⟨-, p2, b1, b2⟩ := h.points m m' m' hf
  rw [(h.own_hole hH he).2] at a1
  rw [← h.other m m' hne he, hs H' m' e he f hf, (h.own_hole hH' hf).1] at a2
  rw [(h.own_hole hH' hf).2] at b2
  rw [← h.other m' m hne.symm hf, ← hs H m e he f hf, (h.own_hole hH he).1] at b1
  rcases h.nested_of m m' hne with k | k | k
  · by_cases hq : polyWind H q = 0
    · exact Or.inl hq
    · exact Or.inr (k q hq)
  · exact absurd a2 (k p1 (by rw [a1]; omega))
  · exact absurd b1 (k p2 (by rw [b2]; omega))

/-- Shapes joined from holes and outer contours with the same surroundings. -/
theorem Rings.proper {parents : List Nat}
    (hpar : ∀ (i : Nat) (H : List Pt), holes[i]? = some H → ∃ (p : Nat) (O : List Pt), parents[i]? = some p ∧ outer[p]? = some O ∧
        SameRing cw (outer ++ holes) H O) :
    ∀ sh ∈ attach (outer.map fun c => [c]) (holes.zip parents), ProperShape sh := by
  intro sh hsh
  obtain ⟨i, hi, rfl⟩ := List.mem_mapIdx.1 hsh
  rw [List.getElem_map]
  have hi' : i < outer.length := by simpa using hi
  have hnd : holes.Nodup := (List.nodup_append.1 h.nodup).2.1
  refine ⟨outer[i], _, rfl, ?_, ?_⟩
  · intro c hc' q hq
    obtain ⟨y, hy, rfl⟩ := List.mem_map.1 hc'
    rw [List.mem_filter] at hy
    obtain ⟨hy1, hy2⟩ := hy
    have hy2 : y.2 = i := by simpa using hy2
    obtain ⟨j, hj⟩ := List.getElem?_of_mem hy1
    rw [List.getElem?_zip_eq_some] at hj
    obtain ⟨j1, j2⟩ := hj
    obtain ⟨p, O, q1, q2, q3⟩ := hpar j y.1 j1
    rw [j2] at q1
    obtain rfl := Option.some.inj q1
    rw [hy2] at q2
    have hO : O = outer[i] := (List.getElem?_eq_some_iff.1 q2).2.symm
    rw [← hO]
    exact h.hole_inside (List.mem_of_getElem? j1) (List.mem_of_getElem? q2) q3 q hq
  · change List.Pairwise _ (List.map _ (List.filter _ _))
    rw [List.pairwise_map]
    have hpw : (holes.zip parents).Pairwise fun y y' => y.2 = y'.2 → ∀ q, polyWind y.1 q = 0 ∨ polyWind y'.1 q = 0 := by
      rw [List.pairwise_iff_getElem]
      intro j j' hj hj' hlt heq q
      have g1 : (holes.zip parents)[j]? = some (holes.zip parents)[j] := List.getElem?_eq_getElem hj
      have g2 : (holes.zip parents)[j']? = some (holes.zip parents)[j'] := List.getElem?_eq_getElem hj'
      generalize (holes.zip parents)[j] = y at *
      generalize (holes.zip parents)[j'] = y' at *
      rw [List.getElem?_zip_eq_some] at g1 g2
      obtain ⟨a1, a2⟩ := g1
      obtain ⟨b1, b2⟩ := g2
      obtain ⟨p, O, q1, q2, q3⟩ := hpar j y.1 a1
      obtain ⟨p', O', q1', q2', q3'⟩ := hpar j' y'.1 b1
      rw [a2] at q1
      rw [b2] at q1'
      obtain rfl := Option.some.inj q1
      obtain rfl := Option.some.inj q1'
      rw [heq] at q2
      rw [q2] at q2'
      obtain rfl := Option.some.inj q2'
      have hne : y.1 ≠ y'.1 := by
        intro e
        have := (List.getElem?_inj (j := j') (List.getElem?_eq_some_iff.1 a1).1 hnd).1 (a1.trans (by rw [b1, e]))
        omega
      exact h.holes_disjoint (List.mem_of_getElem? a1) (List.mem_of_getElem? b1) hne
        (h.same_trans (List.mem_append_left _ (List.mem_of_getElem? q2)) q3 fun X hX e he f hf => (q3' X hX f hf e he).symm) q
    refine (hpw.filter _).imp_of_mem ?_
    intro y y' hy hy' hyy
    have a := (List.mem_filter.1 hy).2
    have b := (List.mem_filter.1 hy').2
    simp only [decide_eq_true_eq] at a b
    exact hyy (a.trans b.symm)

end
end IOverlay
