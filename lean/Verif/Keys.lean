/-
The run of an extraction seen through edges identified by their ends: the contours found wind around every
point at most once, in the requested direction. C41, C42.
-/
import Verif.OrientRun

namespace IOverlay
variable {C : Type}

/-- An edge identified by its ends. -/
def Seg.key (s : Seg C) : Edge := ⟨s.a, s.b, (s.a, s.b)⟩

/-- A count carried over to edges identified by their ends. -/
noncomputable def lift (φ : C → Int) (segs : List (Seg C)) (c : Pt × Pt) : Int :=
  wsum φ (fun f => ind (f.a = c.1 ∧ f.b = c.2)) segs

theorem keyed_keys (segs : List (Seg C)) : Keyed (segs.map Seg.key) := by
  intro s hs
  obtain ⟨t, -, rfl⟩ := List.mem_map.1 hs
  rfl

section
variable {segs : List (Seg C)} (hp : Planar segs)
include hp

theorem planar_keys : Planar (segs.map Seg.key) := by
  refine ⟨?_, ?_, ?_⟩
  · intro t ht
    obtain ⟨s, hs, rfl⟩ := List.mem_map.1 ht
    exact hp.lt s hs
  · rw [List.pairwise_map]
    exact hp.sorted.imp fun {a b} h => h
  · unfold Noded
    rw [List.pairwise_map]
    exact (show List.Pairwise _ _ from hp.noded).imp fun {a b} h => h

theorem lift_eq (φ : C → Int) {s : Seg C} (hs : s ∈ segs) : lift φ segs s.key.c = φ s.c := by
  rw [← wsum_single φ hp.nodup hs]
  unfold lift
  refine wsum_congr φ fun f hf => ind_congr ?_
  constructor
  · rintro ⟨h1, h2⟩; exact hp.seg_ext hf hs h1 h2
  · rintro rfl; exact ⟨rfl, rfl⟩

theorem sum_keys (φ : C → Int) (w : Edge → Int) :
    ((segs.map Seg.key).map fun s => lift φ segs s.c * w s).sum = (segs.map fun s => φ s.c * w s.key).sum := by
  rw [List.map_map]
  congr 1
  refine List.map_congr_left fun s hs => ?_
  show lift φ segs s.key.c * w s.key = _
  rw [lift_eq hp φ hs]

theorem botW_keys (φ : C → Int) (s : Seg C) : botW (lift φ segs) (segs.map Seg.key) s.key = botW φ segs s :=
  sum_keys hp φ _

theorem segsWind_keys (φ : C → Int) (q : QPt) : segsWind (lift φ segs) (segs.map Seg.key) q = segsWind φ segs q :=
  sum_keys hp φ fun s => edgeWind s.a s.b q

theorem closed_keys {φ : C → Int} (hc : Closed φ segs) : Closed (lift φ segs) (segs.map Seg.key) := by
  intro f
  exact (sum_keys hp φ fun s => f s.a - f s.b).trans (hc f)

end

/-- The start edge has the winding number of the contour on its lower side. -/
theorem TopTour.inside {E : List Edge} (hp : Planar E) (hk : Keyed E) {cw : Bool} {U : Edge → Prop} {T : Edge}
    {D : List (Dart (Pt × Pt))} (hT : TopTour cw E U T D) : ∃ q, segsWind (onKeys (trav D)) E q = side cw := by
  obtain ⟨q, ht⟩ := hT.tour
  have h := (hT.hug_trav hp hk _ hT.head_mem).1
  have hs := (ht.mem _ hT.head_mem).1
  obtain ⟨z, hz⟩ := bot_value hp hk (ht.trav_closed hp hk) hs
  refine ⟨z, ?_⟩
  rw [hz, ← h]
  unfold hug
  cases cw <;> simp

theorem Nested.symm {c c' : List Pt} (h : Nested c c') : Nested c' c := by
  rcases h with h | h | h
  · left
    intro q hq
    by_contra hn
    exact hq (h q hn)
  · exact Or.inr (Or.inr h)
  · exact Or.inr (Or.inl h)

/-- The contours of a run: `fs` are found one after the other and use up all edges of the result; `Φ` are the
subject and clip winding numbers, `F` is the overlay rule. -/
structure RunTours (rule : FillRule) (r : OverlayRule) (segs : List (Seg CountBool)) (R : Edge → Prop) (clockwise : Bool)
    (fs : List Found) (Φ : Bool → Pt × Pt → Int) (F : (Bool → Int) → Int) : Prop where
  planar : Planar (segs.map Seg.key)
  keyed : Keyed (segs.map Seg.key)
  tours : Tours clockwise (segs.map Seg.key) R fs
  all : ∀ s, R s → s ∈ fs.flatMap fun f => f.darts.map (·.s)
  closed : ∀ b, Closed (Φ b) (segs.map Seg.key)
  F01 : ∀ v, F v = 0 ∨ F v = 1
  F0 : F 0 = 0
  jump : ∀ s ∈ segs.map Seg.key, F (bvec Φ (segs.map Seg.key) s + cvec Φ s) ≠ F (bvec Φ (segs.map Seg.key) s) ↔ R s
  hole : ∀ f ∈ fs, F (bvec Φ (segs.map Seg.key) f.top + cvec Φ f.top) = if f.hole then 1 else 0
  bot : ∀ s ∈ segs, F (bvec Φ (segs.map Seg.key) s.key) = (if ruleAt rule r (botP segs s) then 1 else 0) ∧
    F (bvec Φ (segs.map Seg.key) s.key + cvec Φ s.key) = (if ruleAt rule r (botP segs s + cpair s) then 1 else 0)
  wind : ∀ q, F (fun k => segsWind (Φ k) (segs.map Seg.key) q) =
    if ruleAt rule r (segsWind CountBool.subj segs q, segsWind CountBool.clip segs q) then 1 else 0

section
variable {rule : FillRule} {r : OverlayRule} {segs : List (Seg CountBool)} {g : Graph} {V : List Pt}
  {vis : List Bool} (h : RunOk rule r segs g V vis)
include h

open Classical in
/-- The contours found, for any limit if no three edges of the result share their left end, else without limit. -/
theorem RunOk.tours_all (clockwise : Bool) {clean : List Pt → List Pt × Bool} (hc : CleanOk clean) {minArea : Nat}
    (hm : minArea = 0 ∨ TwoRight g vis) {e : Extracted}
    (he : extractContours g r clockwise clean minArea vis = some e) :
    ∃ (fs : List Found) (Φ : Bool → Pt × Pt → Int) (F : (Bool → Int) → Int),
      RunTours rule r segs (Open g vis) clockwise fs Φ F ∧
      e.shapes = keptContours clean minArea false (fs.map Found.walked) ∧
      e.holes = keptContours clean minArea true (fs.map Found.walked) ∧
      (∀ f ∈ fs, (validate clean 0 f.raw).1 = true ∧ ∃ trail : List Nat, ClosedTrail g.links trail f.raw) ∧
      ((∀ f ∈ fs, (clean f.raw).2 = false) → e.sorted = true ∧ e.anchors = e.holes.zipIdx.filterMap
          fun h => (holeSegment clockwise h.1).map fun v => (h.2, v)) ∧
      (∀ f ∈ fs, ∀ q, polyWind (clean f.raw).1 q = segsWind (onKeys (trav f.darts)) (segs.map Seg.key) q) ∧
      pushAll clockwise clean minArea Extracted.empty fs = some e := by
  have hpE := planar_keys h.edges.planar
  have hk := keyed_keys segs
  -- links are edges
  have hEl : ∀ l ∈ g.links, l.edge ∈ segs.map Seg.key := by
    intro l hl
    obtain ⟨inc, F, e1, -, -⟩ := h.filter
    have hm := List.mem_map_of_mem (f := fun l : Link => (l.a, l.b, l.fill)) hl
    rw [e1] at hm
    obtain ⟨s, hs, he⟩ := List.mem_map.1 hm
    rw [List.mem_filter] at hs
    simp only [Prod.mk.injEq] at he
    refine List.mem_map.2 ⟨s, hs.1, ?_⟩
    unfold Seg.key Link.edge
    rw [he.1, he.2.1]
  obtain ⟨fs, f1, f2, f3, f4, f5, f6⟩ := extractLoop_tours h.graph h.planar hpE hEl r clockwise clean minArea _ 0 vis _ e
    h.length h.dpar he
  have hval : ∀ f ∈ fs, (validate clean 0 f.raw).1 = true := by
    intro f hf
    obtain ⟨⟨trail, t1, t2, t3⟩, -⟩ := f3 f hf
    exact validate_trail h.planar hc t1 t2 t3
  obtain ⟨hT, hall⟩ := f4 (by intro i hi; omega) (by
    rcases hm with rfl | h2
    · exact Or.inr hval
    · exact Or.inl h2)
  -- the counts
  generalize hΦ : (fun b : Bool => if b then lift CountBool.subj segs else lift CountBool.clip segs) = Φ
  have hcΦ : ∀ b, Closed (Φ b) (segs.map Seg.key) := by
    intro b
    rw [← hΦ]
    cases b
    · exact closed_keys h.edges.planar h.edges.clip
    · exact closed_keys h.edges.planar h.edges.subj
  have hΦt : Φ true = lift CountBool.subj segs := by rw [← hΦ]; rfl
  have hΦf : Φ false = lift CountBool.clip segs := by rw [← hΦ]; rfl
  generalize hF : (fun v : Bool → Int => if ruleAt rule r (v true, v false) then (1:Int) else 0) = F
  have hF01 : ∀ v, F v = 0 ∨ F v = 1 := by
    intro v; rw [← hF]; dsimp only; split <;> simp
  have hbot : ∀ s ∈ segs, F (bvec Φ (segs.map Seg.key) s.key) = (if ruleAt rule r (botP segs s) then 1 else 0) ∧
      F (bvec Φ (segs.map Seg.key) s.key + cvec Φ s.key) =
        (if ruleAt rule r (botP segs s + cpair s) then 1 else 0) := by
    intro s hs
    rw [← hF]
    unfold bvec cvec
    simp only [Pi.add_apply, hΦt, hΦf, botW_keys h.edges.planar, lift_eq h.edges.planar _ hs]
    exact ⟨rfl, rfl⟩
  have hkept : ∀ s ∈ segs, keptB rule r segs s = true ↔ Open g vis s.key := by
    intro s hs
    constructor
    · intro hk'
      obtain ⟨i, l, i1, i2, i3, i4⟩ := h.kept hs hk'
      refine ⟨i, l, i1, i2, ?_⟩
      unfold Link.edge Seg.key
      rw [i3, i4]
    · rintro ⟨i, l, i1, i2, i3⟩
      obtain ⟨t, t1, t2, t3, -, t5⟩ := h.unvisited i1 i2
      unfold Link.edge Seg.key at i3
      simp only [Seg.mk.injEq] at i3
      rw [← h.edges.planar.seg_ext t1 hs (t2.trans i3.1) (t3.trans i3.2.1)]
      exact t5
  have hFR : ∀ s ∈ segs.map Seg.key, F (bvec Φ (segs.map Seg.key) s + cvec Φ s) ≠ F (bvec Φ (segs.map Seg.key) s) ↔
      Open g vis s := by
    intro s hs
    obtain ⟨t, ht, rfl⟩ := List.mem_map.1 hs
    rw [← hkept t ht, (hbot t ht).1, (hbot t ht).2]
    unfold keptB
    cases ruleAt rule r (botP segs t) <;> cases ruleAt rule r (botP segs t + cpair t) <;> simp
  have hhole : ∀ f ∈ fs, F (bvec Φ (segs.map Seg.key) f.top + cvec Φ f.top) = if f.hole then 1 else 0 := by
    intro f hf
    obtain ⟨-, i, l, i1, i2, i3, i4⟩ := f3 f hf
    obtain ⟨t, t1, t2, t3, t4, t5⟩ := h.unvisited i1 i2
    have e1 : f.top = t.key := by
      rw [← i3]; unfold Link.edge Seg.key; rw [t2, t3]
    rw [e1, (hbot t t1).2, i4, t4, isFillTop_fillOf rule r segs t t5]
  have hF0 : F 0 = 0 := by
    rw [← hF]
    have := ruleAt_zero rule r
    simp only [Pi.zero_apply, this]; rfl
  -- polygons and flows
  have hpoly : ∀ f ∈ fs, ∀ q, polyWind (clean f.raw).1 q = segsWind (onKeys (trav f.darts)) (segs.map Seg.key) q := by
    intro f hf q
    obtain ⟨l1, l2, e1⟩ := List.append_of_mem hf
    have hT' := hT
    rw [e1] at hT'
    obtain ⟨U', u1, -, -⟩ := hT'.split hpE (R := Open g vis) quiet_start
    obtain ⟨p, u1⟩ := u1.tour
    rw [hc]
    exact u1.polyWind_eq hpE hk q
  have hwind : ∀ q, F (fun k => segsWind (Φ k) (segs.map Seg.key) q) =
      if ruleAt rule r (segsWind CountBool.subj segs q, segsWind CountBool.clip segs q) then 1 else 0 := by
    intro q
    rw [← hF]
    simp only [hΦt, hΦf, segsWind_keys h.edges.planar]
  refine ⟨fs, Φ, F, ⟨hpE, hk, hT, hall, hcΦ, hF01, hF0, hFR, hhole, hbot, hwind⟩, ?_, ?_, ?_, ?_, hpoly, f6⟩
  · rw [f1]
    simp only [Extracted.empty, List.nil_append]
  · rw [f2]
    simp only [Extracted.empty, List.nil_append]
  · intro f hf
    obtain ⟨⟨trail, t1, t2, t3⟩, -⟩ := f3 f hf
    exact ⟨hval f hf, trail, t3⟩
  · intro hk
    obtain ⟨a1, a2⟩ := f5 hk
    refine ⟨a1, ?_⟩
    rw [a2, f2]
    simp [Extracted.empty]

open Classical in
theorem RunOk.tours (clockwise : Bool) {clean : List Pt → List Pt × Bool} (hc : CleanOk clean) {e : Extracted}
    (he : extractContours g r clockwise clean 0 vis = some e) :
    ∃ (fs : List Found) (Φ : Bool → Pt × Pt → Int) (F : (Bool → Int) → Int),
      RunTours rule r segs (Open g vis) clockwise fs Φ F ∧
      e.shapes = (fs.filter fun f => !f.hole).map (fun f => (clean f.raw).1) ∧
      e.holes = (fs.filter fun f => f.hole).map (fun f => (clean f.raw).1) ∧
      (∀ f ∈ fs, 3 ≤ (clean f.raw).1.length ∧ ∃ trail : List Nat, ClosedTrail g.links trail f.raw) ∧
      ((∀ f ∈ fs, (clean f.raw).2 = false) → e.sorted = true ∧ e.anchors = e.holes.zipIdx.filterMap
          fun h => (holeSegment clockwise h.1).map fun v => (h.2, v)) ∧
      (∀ f ∈ fs, ∀ q, polyWind (clean f.raw).1 q = segsWind (onKeys (trav f.darts)) (segs.map Seg.key) q) ∧
      pushAll clockwise clean 0 Extracted.empty fs = some e := by
  obtain ⟨fs, Φ, F, hR, h1, h2, h3, h4, h5, h6⟩ := h.tours_all clockwise hc (Or.inl rfl) he
  have hval : ∀ f ∈ fs, (validate clean 0 f.raw).1 = true := fun f hf => (h3 f hf).1
  have hkept' : ∀ b, keptContours clean 0 b (fs.map Found.walked) =
      (fs.filter fun f => decide (f.hole = b)).map fun f => (clean f.raw).1 := by
    intro b
    unfold keptContours
    rw [List.filter_map, List.map_map]
    have : (fs.filter ((fun w : Walked => decide (w.hole = b) && (validate clean 0 w.raw).1) ∘ Found.walked)) =
        fs.filter fun f => decide (f.hole = b) := by
      refine List.filter_congr fun f hf => ?_
      show (decide (f.hole = b) && (validate clean 0 f.raw).1) = _
      rw [hval f hf, Bool.and_true]
    rw [this]; rfl
  refine ⟨fs, Φ, F, hR, ?_, ?_, fun f hf => ⟨validate_len (hval f hf), (h3 f hf).2⟩, h4, h5, h6⟩
  · rw [h1, hkept']
    congr 1
    refine List.filter_congr fun f _ => ?_
    cases f.hole <;> rfl
  · rw [h2, hkept']
    congr 1
    refine List.filter_congr fun f _ => ?_
    cases f.hole <;> rfl

open Classical in
theorem RunOk.oriented (clockwise : Bool) {clean : List Pt → List Pt × Bool} (hc : CleanOk clean) {e : Extracted}
    (he : extractContours g r clockwise clean 0 vis = some e) :
    ∃ fs : List Found,
      e.shapes = (fs.filter fun f => !f.hole).map (fun f => (clean f.raw).1) ∧
      e.holes = (fs.filter fun f => f.hole).map (fun f => (clean f.raw).1) ∧
      (∀ f ∈ fs.head?, f.hole = false) ∧
      (∀ f ∈ fs, WindsOnce (if f.hole then - outerTurn clockwise else outerTurn clockwise) (clean f.raw).1) ∧
      (fs.map fun f => (clean f.raw).1).Pairwise Nested ∧
      ∀ q, ((fs.map fun f => (clean f.raw).1).map fun c => polyWind c q).sum =
        outerTurn clockwise * if ruleAt rule r (segsWind CountBool.subj segs q, segsWind CountBool.clip segs q) then 1 else 0 := by
  obtain ⟨fs, Φ, F, hR, e1, e2, -, -, hpoly, -⟩ := h.tours clockwise hc he
  have hpE := hR.planar
  have hk := hR.keyed
  have hT := hR.tours
  have hcΦ := hR.closed
  have hFR := hR.jump
  have hhole := hR.hole
  have hF0 := hR.F0
  have hF01 := hR.F01
  refine ⟨fs, e1, e2, ?_, ?_, ?_, ?_⟩
  · intro f hf
    rcases fs with _ | ⟨x, fs⟩
    · simp at hf
    · simp only [List.head?_cons, Option.mem_some_iff] at hf
      subst hf
      have h1 := hT.first hpE hk Φ hcΦ F (by
        intro s hs hR
        by_contra hn
        exact hR ((hFR s hs).1 hn))
      rw [hhole _ (by simp), hF0] at h1
      cases hx : x.hole
      · rfl
      · rw [hx] at h1; simp at h1
  · intro f hf
    obtain ⟨l1, l2, e1⟩ := List.append_of_mem hf
    have hT' := hT
    rw [e1] at hT'
    obtain ⟨U', u1, -, -⟩ := hT'.split hpE (R := Open g vis) quiet_start
    have es : side (f.hole == clockwise) = if f.hole then - outerTurn clockwise else outerTurn clockwise := by
      unfold side outerTurn
      cases f.hole <;> cases clockwise <;> rfl
    rw [← es]
    constructor
    · intro q
      rw [hpoly f hf]
      exact u1.wind hpE hk q
    · obtain ⟨q, hq⟩ := u1.inside hpE hk
      exact ⟨q, by rw [hpoly f hf]; exact hq⟩
  · rw [List.pairwise_map]
    rw [List.pairwise_iff_forall_sublist]
    intro f f' hsub
    obtain ⟨l1, l2, l3, e1⟩ : ∃ l1 l2 l3, fs = l1 ++ f :: l2 ++ f' :: l3 := by
      rw [List.cons_sublist_iff] at hsub
      obtain ⟨a, b, e1, h1, h2⟩ := hsub
      obtain ⟨a1, a2, rfl⟩ := List.append_of_mem h1
      obtain ⟨b1, b2, rfl⟩ := List.append_of_mem (List.singleton_sublist.1 h2)
      exact ⟨a1, a2 ++ b1, b2, by rw [e1]; simp⟩
    have m1 : f ∈ fs := by rw [e1]; simp
    have m2 : f' ∈ fs := by rw [e1]; simp
    rw [e1] at hT
    rcases hT.nested hpE hk with h1 | h1
    · apply Nested.symm
      left
      intro q hq
      rw [hpoly f m1]
      exact h1 q (by rw [← hpoly f' m2]; exact hq)
    · right; right
      intro q hq
      rw [hpoly f m1]
      exact h1 q (by rw [← hpoly f' m2]; exact hq)
  · intro q
    have ht := hT.total hpE hk Φ hcΦ F hF01 hFR hhole (fun s _ hs => hR.all s hs) q
    rw [hF0, sub_zero] at ht
    rw [hR.wind q] at ht
    unfold outerTurn
    rw [← ht, List.map_map]
    congr 1
    exact List.map_congr_left fun f hf => hpoly f hf q

end

end IOverlay
