/-
Properties C46 (vector shapes: closed paths of result edges, each once, with truthful fill flags) and C47
(separate vectors: every noded edge once, with truthful fill flags).
-/
import Verif.VectorRun
import Verif.Props.Attach

namespace IOverlay

/-! ### specification -/

/-- The point at distance `δ` from `m` on the left-hand side of the directed edge. -/
def VectorEdge.leftPt (e : VectorEdge) (m : QPt) (δ : ℚ) : QPt :=
  if e.a < e.b then leftOf e.a e.b m δ else rightOf e.b e.a m δ

/-- The point at distance `δ` from `m` on the right-hand side of the directed edge. -/
def VectorEdge.rightPt (e : VectorEdge) (m : QPt) (δ : ℚ) : QPt :=
  if e.a < e.b then rightOf e.a e.b m δ else leftOf e.b e.a m δ

/-- At every inner point of the edge, close enough to it, `P` holds for the points on the left and on the
right. -/
def VectorEdge.Beside (e : VectorEdge) (P : QPt → QPt → Prop) : Prop :=
  ∀ m, inSeg m e.a e.b → ∃ ε : ℚ, 0 < ε ∧ ∀ δ, 0 < δ → δ < ε → P (e.leftPt m δ) (e.rightPt m δ)

/-- The four flags of the edge say which sides are inside the subject and inside the clip shape. -/
def VectorEdge.Truthful (rule : FillRule) (segs : List (Seg CountBool)) (e : VectorEdge) : Prop :=
  e.Beside fun left right =>
    (e.fill &&& SUBJ_LEFT ≠ 0 ↔ rule.inside (segsWind CountBool.subj segs left) = true) ∧
    (e.fill &&& SUBJ_RIGHT ≠ 0 ↔ rule.inside (segsWind CountBool.subj segs right) = true) ∧
    (e.fill &&& CLIP_LEFT ≠ 0 ↔ rule.inside (segsWind CountBool.clip segs left) = true) ∧
    (e.fill &&& CLIP_RIGHT ≠ 0 ↔ rule.inside (segsWind CountBool.clip segs right) = true)

/-- The point is inside the result. -/
noncomputable def inResult (rule : FillRule) (r : OverlayRule) (segs : List (Seg CountBool)) (q : QPt) : Bool :=
  r.op (rule.inside (segsWind CountBool.subj segs q)) (rule.inside (segsWind CountBool.clip segs q))

/-- The path is closed: it visits the starts of its edges, in order. -/
def ClosedPath (p : List VectorEdge) : Prop :=
  3 ≤ p.length ∧ polyEdges (toPath p) = p.map fun e => (e.a, e.b)

/-- The ends of an edge, from left to right. -/
def VectorEdge.ends (e : VectorEdge) : Pt × Pt := leftToRight (e.a, e.b)

/-! ### flags and sides -/

section
variable {rule : FillRule} {r : OverlayRule} {segs : List (Seg CountBool)}

/-- Winding numbers beside an edge. -/
theorem beside_wind (he : EdgesOk segs) {s : Seg CountBool} (hs : s ∈ segs) {e : VectorEdge} (P : QPt → QPt → Prop)
    (h : (e.a = s.a ∧ e.b = s.b ∧ ∀ q q', (segsWind CountBool.subj segs q, segsWind CountBool.clip segs q) = botP segs s + cpair s →
        (segsWind CountBool.subj segs q', segsWind CountBool.clip segs q') = botP segs s → P q q') ∨
      (e.a = s.b ∧ e.b = s.a ∧ ∀ q q', (segsWind CountBool.subj segs q, segsWind CountBool.clip segs q) = botP segs s →
        (segsWind CountBool.subj segs q', segsWind CountBool.clip segs q') = botP segs s + cpair s → P q q')) : e.Beside P := by
  have hlt := he.planar.lt s hs
  intro m hm
  have hm' : inSeg m s.a s.b := by
    rcases h with ⟨h1, h2, -⟩ | ⟨h1, h2, -⟩
    · rw [← h1, ← h2]; exact hm
    · rw [← h1, ← h2]; exact inSeg_symm hm
  obtain ⟨ε1, p1, n1⟩ := he.planar.near he.subj hs hm'
  obtain ⟨ε2, p2, n2⟩ := he.planar.near he.clip hs hm'
  refine ⟨min ε1 ε2, lt_min p1 p2, fun δ d0 d1 => ?_⟩
  obtain ⟨d2, d3⟩ := lt_min_iff.1 d1
  obtain ⟨a1, a2⟩ := n1 δ d0 d2
  obtain ⟨a3, a4⟩ := n2 δ d0 d3
  unfold VectorEdge.leftPt VectorEdge.rightPt
  rcases h with ⟨h1, h2, h3⟩ | ⟨h1, h2, h3⟩
  · rw [h1, h2, if_pos hlt, if_pos hlt]
    exact h3 _ _ (by rw [a2, a4]; rfl) (by rw [a1, a3]; rfl)
  · rw [h1, h2, if_neg (Pt.lt_asymm hlt), if_neg (Pt.lt_asymm hlt)]
    exact h3 _ _ (by rw [a1, a3]; rfl) (by rw [a2, a4]; rfl)

theorem flags_mkFill (st sb ct cb : Bool) :
    (mkFill st sb ct cb &&& SUBJ_LEFT ≠ 0 ↔ st = true) ∧ (mkFill st sb ct cb &&& SUBJ_RIGHT ≠ 0 ↔ sb = true) ∧
    (mkFill st sb ct cb &&& CLIP_LEFT ≠ 0 ↔ ct = true) ∧ (mkFill st sb ct cb &&& CLIP_RIGHT ≠ 0 ↔ cb = true) := by
  revert st sb ct cb; decide

theorem sideReverse_mkFill (st sb ct cb : Bool) : sideReverse (mkFill st sb ct cb) = mkFill sb st cb ct := by
  revert st sb ct cb; decide

/-- An edge made of a noded edge with the flags found by the sweep. -/
theorem truthful_new (he : EdgesOk segs) {s : Seg CountBool} (hs : s ∈ segs) {e : VectorEdge}
    (h : e = VectorEdge.new (fillOf rule segs s) s.a s.b ∨ e = VectorEdge.new (fillOf rule segs s) s.b s.a) :
    e.Truthful rule segs := by
  have hlt := he.planar.lt s hs
  unfold VectorEdge.Truthful
  rcases h with rfl | rfl
  · refine beside_wind he hs _ (Or.inl ⟨rfl, rfl, ?_⟩)
    intro q q' h1 h2
    have e1 := congrArg Prod.fst h1
    have e2 := congrArg Prod.snd h1
    have e3 := congrArg Prod.fst h2
    have e4 := congrArg Prod.snd h2
    simp only at e1 e2 e3 e4
    rw [e1, e2, e3, e4]
    unfold VectorEdge.new
    simp only [if_pos hlt]
    exact flags_mkFill _ _ _ _
  · refine beside_wind he hs _ (Or.inr ⟨rfl, rfl, ?_⟩)
    intro q q' h1 h2
    have e1 := congrArg Prod.fst h1
    have e2 := congrArg Prod.snd h1
    have e3 := congrArg Prod.fst h2
    have e4 := congrArg Prod.snd h2
    simp only at e1 e2 e3 e4
    rw [e1, e2, e3, e4]
    unfold VectorEdge.new
    simp only [if_neg (Pt.lt_asymm hlt)]
    unfold fillOf
    rw [sideReverse_mkFill]
    exact flags_mkFill _ _ _ _

theorem kept_borders (he : EdgesOk segs) {s : Seg CountBool} (hs : s ∈ segs) (hk : keptB rule r segs s = true) {e : VectorEdge}
    (h : (e.a = s.a ∧ e.b = s.b) ∨ (e.a = s.b ∧ e.b = s.a)) :
    e.Beside fun left right => inResult rule r segs left ≠ inResult rule r segs right := by
  unfold keptB at hk
  have key : ∀ q, inResult rule r segs q = ruleAt rule r (segsWind CountBool.subj segs q, segsWind CountBool.clip segs q) := fun _ => rfl
  rcases h with ⟨h1, h2⟩ | ⟨h1, h2⟩
  · refine beside_wind he hs _ (Or.inl ⟨h1, h2, ?_⟩)
    intro q q' h1 h2
    rw [key, key, h1, h2]
    intro h
    rw [h] at hk; simp at hk
  · refine beside_wind he hs _ (Or.inr ⟨h1, h2, ?_⟩)
    intro q q' h1 h2
    rw [key, key, h1, h2]
    intro h
    rw [h] at hk; simp at hk

end

/-! ### C46 on a prepared graph -/

section
variable {rule : FillRule} {r : OverlayRule} {segs : List (Seg CountBool)} {g : Graph} {V : List Pt}
  (h : RunOk rule r segs g V (g.links.map fun l => maskFilter r l.fill))
include h

/-- What is true of every path found. -/
def PathsOk (rule : FillRule) (r : OverlayRule) (segs : List (Seg CountBool)) (ps : List (List VectorEdge)) : Prop :=
  (∀ p ∈ ps, ClosedPath p ∧ ∀ e ∈ p, e.Truthful rule segs ∧
    e.Beside (fun left right => inResult rule r segs left ≠ inResult rule r segs right) ∧
    e.ends ∈ segs.map fun s => (s.a, s.b)) ∧
  (ps.flatten.map VectorEdge.ends).Nodup

omit h in
theorem FromLink.ok {vis : List Bool} {segs : List (Seg CountBool)} (h : RunOk rule r segs g V vis) {e : VectorEdge} (he : FromLink g vis e) :
    e.Truthful rule segs ∧ e.Beside (fun left right => inResult rule r segs left ≠ inResult rule r segs right) ∧
      e.ends ∈ segs.map fun s => (s.a, s.b) := by
  obtain ⟨i, l, h1, h2, h3⟩ := he
  obtain ⟨s, s1, s2, s3, s4, s5⟩ := h.unvisited h1 h2
  have hlt := h.edges.planar.lt s s1
  rw [← s2, ← s3, s4] at h3
  refine ⟨truthful_new h.edges s1 h3, kept_borders h.edges s1 s5 ?_, List.mem_map.2 ⟨s, s1, ?_⟩⟩
  · rcases h3 with rfl | rfl
    · exact Or.inl ⟨rfl, rfl⟩
    · exact Or.inr ⟨rfl, rfl⟩
  · unfold VectorEdge.ends leftToRight
    rcases h3 with rfl | rfl
    · simp [VectorEdge.new_a, VectorEdge.new_b, hlt]
    · simp [VectorEdge.new_a, VectorEdge.new_b, Pt.lt_asymm hlt]

theorem RunOk.vectorPaths_ok : ∃ v, vectorPaths g r = some v ∧ PathsOk rule r segs (v.shapes.flatten ++ v.holes) := by
  obtain ⟨v, ws, h1, h2, h3, h4, h5⟩ := vectorLoop_spec h.graph r (g.links.length + 1) 0 _ ⟨[], []⟩ h.length h.dpar (by omega)
  refine ⟨v, h1, ?_, ?_⟩
  · intro p hp
    have := h2.mem_iff.1 hp
    simp only [List.flatten_nil, List.nil_append] at this
    obtain ⟨w, hw, rfl⟩ := List.mem_map.1 this
    obtain ⟨a0, a1, a2, a3⟩ := h5 w hw
    refine ⟨⟨?_, a2⟩, fun e he => FromLink.ok h (a3 e he)⟩
    have := validate_len (validate_trail h.planar noClean_ok ((List.nodup_flatMap.1 h3).1 w hw) a0 a1)
    simpa [noClean, toPath] using this
  · have hp : (v.shapes.flatten ++ v.holes).flatten.Perm (ws.flatMap (·.2)) := by
      have := h2.flatten
      simpa [List.flatMap] using this
    have hnd : ((ws.flatMap (·.2)).map VectorEdge.ends).Nodup := by
      have e := walked_edges h.graph.lt (ws.map fun w => (⟨w.1, toPath w.2, false⟩ : Walked)) (by
        intro w hw
        obtain ⟨w', hw', rfl⟩ := List.mem_map.1 hw
        exact (h5 w' hw').2.1)
      rw [List.flatMap_map, List.flatMap_map] at e
      have e1 : (ws.flatMap fun w => polyEdges (toPath w.2)).map leftToRight = (ws.flatMap (·.2)).map VectorEdge.ends := by
        rw [List.map_flatMap, List.map_flatMap, List.flatMap_def, List.flatMap_def]
        congr 1
        refine List.map_congr_left fun w hw => ?_
        rw [(h5 w hw).2.2.1, List.map_map]
        rfl
      have e2 : (((ws.flatMap (·.2)).map VectorEdge.ends).map some).Nodup := by
        rw [← e1, e]
        refine List.Nodup.map_on ?_ h3
        intro i hi j hj hij
        have hi' := unvisited_lt (h4 i hi)
        have hj' := unvisited_lt (h4 j hj)
        rw [List.length_map] at hi' hj'
        rw [List.getElem?_map, List.getElem?_map, List.getElem?_eq_getElem hi', List.getElem?_eq_getElem hj'] at hij
        simp only [Option.map_some, Option.some.injEq, Prod.mk.injEq] at hij
        by_contra hne
        have hs := h.planar.sorted
        have : ∀ i j (hi : i < g.links.length) (hj : j < g.links.length), i < j → ¬ (g.links[i].a = g.links[j].a ∧ g.links[i].b = g.links[j].b) := by
          intro i j hi hj hlt ⟨q1, q2⟩
          have := List.pairwise_iff_getElem.1 hs i j (by simpa using hi) (by simpa using hj) hlt
          rw [List.getElem_map, List.getElem_map] at this
          unfold Link.seg Seg.lt at this
          simp only [q1, q2] at this
          rcases this with h | ⟨-, h⟩
          · exact Pt.lt_irrefl _ h
          · exact Pt.lt_irrefl _ h
        rcases Nat.lt_or_gt_of_ne hne with hl | hl
        · exact this i j hi' hj' hl hij
        · exact this j i hj' hi' hl ⟨hij.1.symm, hij.2.symm⟩
      exact List.Nodup.of_map _ e2
    exact (hp.map _).nodup_iff.2 hnd

omit h in
theorem PathsOk.perm {ps ps' : List (List VectorEdge)} (h : PathsOk rule r segs ps) (hp : ps'.Perm ps) :
    PathsOk rule r segs ps' := by
  refine ⟨fun p h' => h.1 p (hp.mem_iff.1 h'), ?_⟩
  exact (hp.flatten.map VectorEdge.ends).nodup_iff.2 h.2

theorem RunOk.vector_ok {o : BindOracle} {sortX : List IdSeg → List IdSeg} {shapes : List (List (List VectorEdge))}
    (he : extractShapeVectors o sortX g r = some shapes) : PathsOk rule r segs shapes.flatten := by
  obtain ⟨v, h1, h2⟩ := h.vectorPaths_ok
  unfold extractShapeVectors at he
  rw [h1, Option.bind_some] at he
  by_cases hs : v.shapes = []
  · rw [hs] at he
    unfold vectorJoin at he
    simp only [List.isEmpty_nil, Bool.true_or, if_true, Option.some.injEq] at he
    subst he
    exact ⟨by simp, by simp⟩
  · exact h2.perm (vectorJoin_perm he hs)

omit h in
theorem rightDeg_eq (F : Fill → Bool) (p : Pt) : rightDeg g (g.links.map fun l => F l.fill) p =
    (g.links.filter fun l => !F l.fill && decide (l.a = p)).length := by
  unfold rightDeg
  have e : ∀ i ∈ List.range g.links.length, ∀ l, g.links[i]? = some l →
      isVisited (g.links.map fun l => F l.fill) i = F l.fill := by
    intro i _ l hl
    unfold isVisited
    rw [List.getD_eq_getElem?_getD, List.getElem?_map, hl]
    rfl
  refine (List.countP_congr (q := (fun o : Option Link => o.any fun l => !F l.fill && decide (l.a = p)) ∘ fun i => g.links[i]?)
    fun i hi => ?_).trans ?_
  · have hi' := List.mem_range.1 hi
    have hl : g.links[i]? = some g.links[i] := List.getElem?_eq_getElem hi'
    rw [e i hi _ hl, Function.comp_apply, hl]
    rfl
  · rw [← List.countP_map, range_map_get, List.countP_map, ← List.countP_eq_length_filter]
    rfl

/-- With at most four result edges starting (at their left end) in a common point. -/
theorem RunOk.vector_complete
    (h4 : ∀ p, (g.links.filter fun l => !maskFilter r l.fill && decide (l.a = p)).length ≤ 4) :
    ∃ (pss phs : List (List VectorEdge)), vectorPaths g r = some ⟨pss.map fun p => [p], phs⟩ ∧ (pss = [] → phs = []) ∧
      (∀ p ∈ pss, WindsOnce (outerTurn true) (toPath p)) ∧ (∀ p ∈ phs, WindsOnce (- outerTurn true) (toPath p)) ∧
      ((pss ++ phs).map toPath).Pairwise Nested ∧
      (∀ q, polysWind ((pss ++ phs).map toPath) q = outerTurn true * if inResult rule r segs q then 1 else 0) ∧
      (∀ p ∈ pss ++ phs, ∀ e ∈ p, e.Beside fun left right =>
        inResult rule r segs left = false ∧ inResult rule r segs right = true) ∧
      ((pss ++ phs).flatten.map VectorEdge.ends).Perm
        ((g.links.filter fun l => !maskFilter r l.fill).map fun l => (l.a, l.b)) := by
  have hu : unv g (g.links.map fun l => maskFilter r l.fill) ≤ g.links.length := by
    unfold unv
    exact (List.countP_le_length).trans (by simp)
  obtain ⟨v, e, pss, phs, q1, q2, q3, q4, q5, q6, q7⟩ := vectorLoop_extract h.graph h.planar r (g.links.length + 1) 0
    (g.links.map fun l => maskFilter r l.fill) ⟨[], []⟩ 0 (2 * (g.links.map fun l => maskFilter r l.fill).length + 1)
    Extracted.empty h.length h.dpar (fun p => by rw [rightDeg_eq]; exact h4 p) (by intro i l hi; omega) (by intro i hi; omega)
    (le_refl _) (Nat.zero_le _) (by omega) (by rw [List.length_map]; omega)
  simp only [Extracted.empty, List.nil_append] at q3 q4 q5 q6
  have hv : v = ⟨pss.map fun p => [p], phs⟩ := by rw [← q3, ← q4]
  have he : extractContours g r true noClean 0 (g.links.map fun l => maskFilter r l.fill) = some e := q2
  obtain ⟨fs, o1, o2, o3, o4, o5, o6⟩ := h.oriented true noClean_ok he
  have en : ∀ c, (noClean c).1 = c := fun _ => rfl
  simp only [en] at o1 o2 o4 o5 o6
  rw [q5] at o1
  rw [q6] at o2
  have hperm : ((pss ++ phs).map toPath).Perm (fs.map Found.raw) := by
    rw [List.map_append, o1, o2, ← List.map_append]
    refine List.Perm.map _ ?_
    refine List.Perm.trans ?_ (List.filter_append_perm (fun f : Found => !f.hole) fs)
    refine List.Perm.append_left _ (List.Perm.of_eq (List.filter_congr fun w _ => ?_))
    simp
  have hmem : ∀ p ∈ pss ++ phs, ∃ f ∈ fs, toPath p = f.raw := by
    intro p hp
    obtain ⟨f, f1, f2⟩ := List.mem_map.1 (hperm.mem_iff.1 (List.mem_map_of_mem (f := toPath) hp))
    exact ⟨f, f1, f2.symm⟩
  refine ⟨pss, phs, by rw [← hv]; exact q1, ?_, ?_, ?_, ?_, ?_, ?_, ?_⟩
  · rintro rfl
    rcases fs with _ | ⟨f, fs⟩
    · simpa using o2
    · have := o3 f rfl
      rw [List.filter_cons] at o1
      simp [this] at o1
  · intro p hp
    have := List.mem_map_of_mem (f := toPath) hp
    rw [o1] at this
    obtain ⟨f, f1, f2⟩ := List.mem_map.1 this
    rw [List.mem_filter] at f1
    have w := o4 f f1.1
    rw [f2] at w
    have hh : f.hole = false := by simpa using f1.2
    simpa [hh] using w
  · intro p hp
    have := List.mem_map_of_mem (f := toPath) hp
    rw [o2] at this
    obtain ⟨f, f1, f2⟩ := List.mem_map.1 this
    rw [List.mem_filter] at f1
    have w := o4 f f1.1
    rw [f2] at w
    simpa [f1.2] using w
  · exact (hperm.pairwise_iff fun {a b} h => Nested.symm h).2 o5
  · intro q
    rw [polysWind_perm hperm]
    exact o6 q
  · obtain ⟨fs', Φ, F, hR, t1, t2, -⟩ := h.tours true noClean_ok he
    simp only [en] at t1 t2
    rw [q5] at t1
    rw [q6] at t2
    intro p hp e' he'
    have hmem : ∃ f ∈ fs', toPath p = f.raw := by
      rcases List.mem_append.1 hp with hp | hp
      · have := List.mem_map_of_mem (f := toPath) hp
        rw [t1] at this
        obtain ⟨f, f1, f2⟩ := List.mem_map.1 this
        exact ⟨f, (List.mem_filter.1 f1).1, f2.symm⟩
      · have := List.mem_map_of_mem (f := toPath) hp
        rw [t2] at this
        obtain ⟨f, f1, f2⟩ := List.mem_map.1 this
        exact ⟨f, (List.mem_filter.1 f1).1, f2.symm⟩
    obtain ⟨f, f1, f2⟩ := hmem
    have hed : (e'.a, e'.b) ∈ polyEdges f.raw := by
      rw [← f2, (q7 p hp).1]
      exact List.mem_map_of_mem (f := fun e : VectorEdge => (e.a, e.b)) he'
    obtain ⟨s, s1, s2⟩ := hR.edge_sides (by
      rintro s ⟨i, l, i1, i2, i3⟩
      obtain ⟨t, t1, t2, t3, -⟩ := h.unvisited i1 i2
      refine List.mem_map.2 ⟨t, t1, ?_⟩
      rw [← i3]
      unfold Link.edge Seg.key
      rw [t2, t3]) f1 hed
    have key : ∀ q, inResult rule r segs q = ruleAt rule r (segsWind CountBool.subj segs q, segsWind CountBool.clip segs q) :=
      fun _ => rfl
    rcases s2 with ⟨a1, a2, a3, a4⟩ | ⟨a1, a2, a3, a4⟩
    · refine beside_wind h.edges s1 _ (Or.inl ⟨a1, a2, fun q q' k1 k2 => ?_⟩)
      rw [key, key, k1, k2]
      exact ⟨a4, a3⟩
    · refine beside_wind h.edges s1 _ (Or.inr ⟨a1, a2, fun q q' k1 k2 => ?_⟩)
      rw [key, key, k1, k2]
      exact ⟨a3, a4⟩
  · obtain ⟨ws, e2, w1, w2, w3, w4, -, w6⟩ := h.extract_all true noClean_ok
    rw [he] at w1
    obtain rfl := Option.some.inj w1
    simp only [en] at w2 w3
    rw [q5] at w2
    rw [q6] at w3
    have hp2 : ((pss ++ phs).map toPath).Perm (ws.map (·.raw)) := by
      rw [List.map_append, w2, w3, ← List.map_append]
      refine List.Perm.map _ ?_
      refine List.Perm.trans ?_ (List.filter_append_perm (fun f : Walked => !f.hole) ws)
      refine List.Perm.append_left _ (List.Perm.of_eq (List.filter_congr fun w _ => ?_))
      simp
    have e1 : (pss ++ phs).flatten.map VectorEdge.ends = (((pss ++ phs).map toPath).flatMap polyEdges).map leftToRight := by
      rw [List.flatMap_map, List.map_flatMap, List.flatMap_def, List.map_flatten]
      congr 1
      refine List.map_congr_left fun w hw => ?_
      rw [(q7 w hw).1, List.map_map]
      rfl
    rw [e1]
    apply map_some_perm
    rw [← unvisited_edges (maskFilter r) rfl]
    refine List.Perm.trans ?_ (w6.map _)
    rw [← walked_edges h.graph.lt ws w4]
    refine List.Perm.map _ (List.Perm.map _ ?_)
    rw [← List.flatMap_map (f := fun w : Walked => w.raw) (g := polyEdges)]
    exact hp2.flatMap_right _

/-- The shapes returned describe the result. -/
structure ShapesOk (rule : FillRule) (r : OverlayRule) (segs : List (Seg CountBool)) (edges : List (Pt × Pt))
    (shapes : List (List (List VectorEdge))) : Prop where
  /-- a shape is an outer path, clockwise, and holes, counter-clockwise -/
  outer : ∀ s ∈ shapes, ∃ o hs, s = o :: hs ∧ WindsOnce (outerTurn true) (toPath o) ∧
    ∀ h ∈ hs, WindsOnce (- outerTurn true) (toPath h)
  nested : (shapes.flatten.map toPath).Pairwise Nested
  /-- the paths together wind around exactly the points of the result -/
  wind : ∀ q, polysWind (shapes.flatten.map toPath) q = outerTurn true * if inResult rule r segs q then 1 else 0
  /-- the result lies on the right of every edge -/
  sides : ∀ p ∈ shapes.flatten, ∀ e ∈ p, e.Beside fun left right =>
    inResult rule r segs left = false ∧ inResult rule r segs right = true
  /-- the given edges, each once -/
  once : (shapes.flatten.flatten.map VectorEdge.ends).Perm edges

theorem RunOk.vector_shapes {o : BindOracle} {sortX : List IdSeg → List IdSeg} {shapes : List (List (List VectorEdge))}
    (h4 : ∀ p, (g.links.filter fun l => !maskFilter r l.fill && decide (l.a = p)).length ≤ 4)
    (he : extractShapeVectors o sortX g r = some shapes) :
    ShapesOk rule r segs ((g.links.filter fun l => !maskFilter r l.fill).map fun l => (l.a, l.b)) shapes := by
  obtain ⟨pss, phs, q1, q2, q3, q4, q5, q6, q7, q8⟩ := h.vector_complete h4
  unfold extractShapeVectors at he
  rw [q1, Option.bind_some] at he
  have efl : ∀ l : List (List VectorEdge), (l.map fun p => [p]).flatten = l := by
    intro l
    induction l with
    | nil => rfl
    | cons x l ih => rw [List.map_cons, List.flatten_cons, ih]; rfl
  have hall : shapes.flatten.Perm (pss ++ phs) ∧ ∀ s ∈ shapes, ∃ o hs, s = o :: hs ∧ o ∈ pss ∧ ∀ h ∈ hs, h ∈ phs := by
    by_cases hp : pss = []
    · have := q2 hp
      subst hp this
      unfold vectorJoin at he
      simp only [List.map_nil, List.isEmpty_nil, Bool.true_or, if_true, Option.some.injEq] at he
      subst he
      exact ⟨by simp, by simp⟩
    · have hne : (pss.map fun p => [p]) ≠ [] := by simpa using hp
      refine ⟨?_, ?_⟩
      · have := vectorJoin_perm he hne
        rwa [efl] at this
      · obtain ⟨ps, p1, p2, rfl⟩ := vectorJoin_spec he hne
        intro s hs
        unfold attach at hs
        obtain ⟨i, hi⟩ := List.mem_iff_getElem?.1 hs
        rw [List.getElem?_mapIdx, List.getElem?_map] at hi
        cases hpi : pss[i]? with
        | none => rw [hpi] at hi; simp at hi
        | some o =>
          rw [hpi] at hi
          simp only [Option.map_some, Option.some.injEq] at hi
          refine ⟨o, _, hi.symm, List.mem_of_getElem? hpi, ?_⟩
          intro x hx
          obtain ⟨y, y1, rfl⟩ := List.mem_map.1 hx
          exact (List.of_mem_zip (List.mem_filter.1 y1).1).1
  obtain ⟨a1, a2⟩ := hall
  have a1' := a1.map toPath
  refine ⟨?_, ?_, ?_, ?_, ?_⟩
  · intro s hs
    obtain ⟨o, hs', b1, b2, b3⟩ := a2 s hs
    exact ⟨o, hs', b1, q3 o b2, fun x hx => q4 x (b3 x hx)⟩
  · exact (a1'.pairwise_iff fun {a b} h => Nested.symm h).2 q5
  · intro q
    rw [polysWind_perm a1']
    exact q6 q
  · intro p hp
    exact q7 p (a1.mem_iff.1 hp)
  · exact (a1.flatten.map _).trans q8

end

/-! ### C46 -/

/-- C46 (the walk ends): for any input the paths are found, and all of them are closed paths of edges of the
result, with truthful flags, and no edge is used twice. -/
theorem C46_paths_found (k : Config) (x : Externals) (ha : Assumed k x) (r : OverlayRule) (rule : FillRule)
    (subj clip : List (List Pt)) (hf : FragFor k subj clip) (g : Graph)
    (hg : intoGraph k x rule (overlaySegments subj clip) = some g) :
    ∃ segs v, nodedEdges k.st k.sr k.tree k.fuel (overlaySegments subj clip) = some segs ∧
      vectorPaths g r = some v ∧ PathsOk rule r segs (v.shapes.flatten ++ v.holes) := by
  unfold intoGraph at hg
  obtain ⟨links, h1, h2⟩ := Option.bind_eq_some_iff.1 hg
  obtain ⟨segs, g', V, q1, q2, -, q4⟩ := runOk_graph ha.tree ha.scan r ha.sortE hf h1
  rw [h2] at q2
  obtain rfl := Option.some.inj q2
  obtain ⟨v, v1, v2⟩ := q4.vectorPaths_ok
  exact ⟨segs, v, q1, v1, v2⟩

/-- C46 (`into_shape_vectors`): every path returned is closed and made of edges of the result (the result
lies on exactly one side of them), with truthful flags; no edge is returned twice. -/
theorem C46_edges (k : Config) (x : Externals) (ha : Assumed k x) (sortX : List IdSeg → List IdSeg) (r : OverlayRule)
    (rule : FillRule) (subj clip : List (List Pt)) (hf : FragFor k subj clip) (shapes : List (List (List VectorEdge)))
    (h : intoShapeVectors k x sortX rule r (overlaySegments subj clip) = some shapes) :
    ∃ segs, nodedEdges k.st k.sr k.tree k.fuel (overlaySegments subj clip) = some segs ∧
      PathsOk rule r segs shapes.flatten := by
  unfold intoShapeVectors at h
  obtain ⟨links, h1, h⟩ := Option.bind_eq_some_iff.1 h
  obtain ⟨g, h2, h⟩ := Option.bind_eq_some_iff.1 h
  obtain ⟨segs, g', V, q1, q2, -, q4⟩ := runOk_oneShot_mask ha.tree ha.scan ha.sortE hf h1
  rw [h2] at q2
  obtain rfl := Option.some.inj q2
  exact ⟨segs, q1, q4.vector_ok h⟩

/-- C46 (`extract_shape_vectors` from a prebuilt graph). -/
theorem C46_edges_graph (k : Config) (x : Externals) (ha : Assumed k x) (sortX : List IdSeg → List IdSeg) (r : OverlayRule)
    (rule : FillRule) (subj clip : List (List Pt)) (hf : FragFor k subj clip) (g : Graph)
    (shapes : List (List (List VectorEdge)))
    (hg : intoGraph k x rule (overlaySegments subj clip) = some g)
    (h : extractShapeVectors x.bind sortX g r = some shapes) :
    ∃ segs, nodedEdges k.st k.sr k.tree k.fuel (overlaySegments subj clip) = some segs ∧
      PathsOk rule r segs shapes.flatten := by
  unfold intoGraph at hg
  obtain ⟨links, h1, h2⟩ := Option.bind_eq_some_iff.1 hg
  obtain ⟨segs, g', V, q1, q2, -, q4⟩ := runOk_graph ha.tree ha.scan r ha.sortE hf h1
  rw [h2] at q2
  obtain rfl := Option.some.inj q2
  exact ⟨segs, q1, q4.vector_ok h⟩

/-- Flags of the links of a graph. -/
theorem mask_included {rule : FillRule} {r : OverlayRule} {inc : Fill → Bool} {k : Config} {x : Externals} (ha : Assumed k x)
    {subj clip : List (List Pt)} (hf : FragFor k subj clip) {links : List Link} {g : Graph}
    (h1 : buildBoolean inc rule k.st k.sr k.tree k.scan k.fuel (overlaySegments subj clip) = some links)
    (h3 : g.links.map (fun l => (l.a, l.b, l.fill)) = links.map (fun l => (l.a, l.b, l.fill)))
    (hinc : ∀ f, inc f = true → f < 16#8 → (!maskFilter r f) = isIncluded r f) :
    ∀ l ∈ g.links, inc l.fill = true ∧ (!maskFilter r l.fill) = isIncluded r l.fill := by
  intro l hl
  obtain ⟨segs', he', -, rfl⟩ := buildBoolean_spec ha.tree ha.scan hf h1
  have hm : (l.a, l.b, l.fill) ∈ g.links.map (fun l => (l.a, l.b, l.fill)) :=
    List.mem_map_of_mem (f := fun l : Link => (l.a, l.b, l.fill)) hl
  rw [h3, List.map_map] at hm
  obtain ⟨s, hs, he⟩ := List.mem_map.1 hm
  rw [List.mem_filter] at hs
  simp only [Function.comp, Prod.mk.injEq] at he
  rw [← he.2.2]
  exact ⟨hs.2, hinc _ hs.2 (fillOf_lt rule segs' s)⟩

/-- C46 (`into_shape_vectors`), for results with at most four edges going right from a common point: the
paths are the whole boundary of the result, each edge once, with the result on the right of it; outer paths
wind clockwise, holes counter-clockwise, and together they wind around exactly the points of the result.
Missing: results with more than four such edges (`C46_refuted_lost`) and that a hole is attached to the
shape around it (`C46_refuted_parent`, `C46_refuted_panic`). -/
theorem C46_complete_partial (k : Config) (x : Externals) (ha : Assumed k x) (sortX : List IdSeg → List IdSeg)
    (r : OverlayRule) (rule : FillRule) (subj clip : List (List Pt)) (hf : FragFor k subj clip)
    (shapes : List (List (List VectorEdge))) (links : List Link)
    (hb : buildBoolean (isIncluded r) rule k.st k.sr k.tree k.scan k.fuel (overlaySegments subj clip) = some links)
    (h4 : ∀ p, (links.filter fun l => decide (l.a = p)).length ≤ 4)
    (h : intoShapeVectors k x sortX rule r (overlaySegments subj clip) = some shapes) :
    ∃ segs, nodedEdges k.st k.sr k.tree k.fuel (overlaySegments subj clip) = some segs ∧
      ShapesOk rule r segs (links.map fun l => (l.a, l.b)) shapes := by
  unfold intoShapeVectors at h
  rw [hb, Option.bind_some] at h
  obtain ⟨g, h2, h⟩ := Option.bind_eq_some_iff.1 h
  obtain ⟨segs, g', V, q1, q2, q3, q4⟩ := runOk_oneShot_mask ha.tree ha.scan ha.sortE hf hb
  rw [h2] at q2
  obtain rfl := Option.some.inj q2
  have hm := mask_included (r := r) (g := g) ha hf hb q3 (by
    intro f h1 h2
    have := C11_graph_filter r f h2
    rw [h1] at this ⊢
    rw [Bool.and_eq_true] at this
    exact this.2)
  have e : ∀ l ∈ g.links, (!maskFilter r l.fill) = true := fun l hl => (hm l hl).2.trans (hm l hl).1
  have ef : (g.links.filter fun l => !maskFilter r l.fill) = g.links := List.filter_eq_self.2 e
  have el : (g.links.map fun l => (l.a, l.b)) = links.map fun l => (l.a, l.b) := by
    have := congrArg (List.map fun t : Pt × Pt × Fill => (t.1, t.2.1)) q3
    rwa [List.map_map, List.map_map] at this
  have := q4.vector_shapes (fun p => by
    have h5 := h4 p
    rw [← List.countP_eq_length_filter] at h5 ⊢
    refine le_trans (le_of_eq ?_) h5
    have e1 := congrArg (List.countP fun t : Pt × Pt => decide (t.1 = p)) el
    rw [List.countP_map, List.countP_map] at e1
    refine Eq.trans (List.countP_congr fun l hl => ?_) e1
    rw [e l hl]; rfl) h
  rw [ef, el] at this
  exact ⟨segs, q1, this⟩

/-- C46 (`extract_shape_vectors` from a prebuilt graph), the same. -/
theorem C46_complete_graph_partial (k : Config) (x : Externals) (ha : Assumed k x) (sortX : List IdSeg → List IdSeg)
    (r : OverlayRule) (rule : FillRule) (subj clip : List (List Pt)) (hf : FragFor k subj clip) (g : Graph)
    (shapes : List (List (List VectorEdge)))
    (hg : intoGraph k x rule (overlaySegments subj clip) = some g)
    (h4 : ∀ p, (g.links.filter fun l => isIncluded r l.fill && decide (l.a = p)).length ≤ 4)
    (h : extractShapeVectors x.bind sortX g r = some shapes) :
    ∃ segs, nodedEdges k.st k.sr k.tree k.fuel (overlaySegments subj clip) = some segs ∧
      ShapesOk rule r segs ((g.links.filter fun l => isIncluded r l.fill).map fun l => (l.a, l.b)) shapes := by
  unfold intoGraph at hg
  obtain ⟨links, h1, h2⟩ := Option.bind_eq_some_iff.1 hg
  obtain ⟨segs, g', V, q1, q2, q3, q4⟩ := runOk_graph ha.tree ha.scan r ha.sortE hf h1
  rw [h2] at q2
  obtain rfl := Option.some.inj q2
  have hm := mask_included (r := r) (g := g) ha hf h1 q3 (by
    intro f h1 h2
    have := C11_graph_filter r f h2
    rw [h1, Bool.true_and] at this
    exact this)
  have := q4.vector_shapes (fun p => by
    have h5 := h4 p
    rw [← List.countP_eq_length_filter] at h5 ⊢
    refine le_trans (le_of_eq (List.countP_congr fun l hl => ?_)) h5
    rw [(hm l hl).2]) h
  rw [List.filter_congr fun l hl => (hm l hl).2] at this
  exact ⟨segs, q1, this⟩

/-! ### C47 -/

/-- C47 (`into_separate_vectors`): every noded edge is listed once, from left to right, in the order of the
noded edges, with truthful flags. -/
theorem C47_separate (k : Config) (x : Externals) (ha : Assumed k x) (rule : FillRule)
    (subj clip : List (List Pt)) (hf : FragFor k subj clip) (vs : List VectorEdge)
    (h : intoSeparateVectors k x rule (overlaySegments subj clip) = some vs) :
    ∃ segs, nodedEdges k.st k.sr k.tree k.fuel (overlaySegments subj clip) = some segs ∧
      vs.map (fun v => (v.a, v.b)) = segs.map (fun s => (s.a, s.b)) ∧
      (∀ v ∈ vs, v.a < v.b ∧ v.Truthful rule segs) ∧
      (vs.map fun v => (v.a, v.b)).Nodup ∧ segs.Pairwise fun s t => MeetAtEnds s.a s.b t.a t.b := by
  unfold intoSeparateVectors at h
  obtain ⟨links, h1, h⟩ := Option.bind_eq_some_iff.1 h
  obtain ⟨g, h2, rfl⟩ := Option.map_eq_some_iff.1 h
  obtain ⟨segs, he, hsg, hl⟩ := buildBoolean_spec ha.tree ha.scan hf h1
  obtain ⟨g', V, h3, hg, h4⟩ := Graph.new_spec ha.sortE (buildBoolean_linksOk ha.tree ha.scan hf h1)
  rw [h2] at h3
  obtain rfl := Option.some.inj h3
  have e : g.links.map (fun l => (l.a, l.b, l.fill)) = segs.map fun s => (s.a, s.b, fillOf rule segs s) := by
    rw [h4, hl, List.map_map, List.filter_eq_self.2 (by simp)]; rfl
  have e1 : (extractSeparateVectors g).map (fun v => (v.a, v.b)) = segs.map fun s => (s.a, s.b) := by
    have := congrArg (List.map fun t : Pt × Pt × Fill => (t.1, t.2.1)) e
    rw [List.map_map, List.map_map] at this
    unfold extractSeparateVectors
    rw [List.map_map]
    exact this
  refine ⟨segs, hsg, e1, ?_, ?_, ?_⟩
  · intro v hv
    unfold extractSeparateVectors at hv
    obtain ⟨l, l1, rfl⟩ := List.mem_map.1 hv
    have hm := List.mem_map_of_mem (f := fun l : Link => (l.a, l.b, l.fill)) l1
    rw [e] at hm
    obtain ⟨s, s1, s2⟩ := List.mem_map.1 hm
    simp only [Prod.mk.injEq] at s2
    obtain ⟨s2, s3, s4⟩ := s2
    have hlt := he.planar.lt s s1
    refine ⟨by rw [← s2, ← s3]; exact hlt, truthful_new he s1 (Or.inl ?_)⟩
    unfold VectorEdge.new
    rw [if_pos hlt, s2, s3, s4]
  · rw [e1]
    have := he.planar.sorted
    unfold List.Nodup
    rw [List.pairwise_map]
    refine this.imp fun {s t} h heq => ?_
    simp only [Prod.mk.injEq] at heq
    unfold Seg.lt at h
    rw [heq.1, heq.2] at h
    rcases h with h | ⟨-, h⟩
    · exact Pt.lt_irrefl _ h
    · exact Pt.lt_irrefl _ h
  · exact he.planar.noded

end IOverlay
