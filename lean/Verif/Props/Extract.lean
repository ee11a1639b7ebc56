/-
Properties C01 (the result is the boolean combination), C21 and C22 (extraction uses every kept edge
once, contours are closed, extraction terminates), C24 (area filter), C25 (holes).
-/
import Verif.Run
import Verif.Props.Split

namespace IOverlay

theorem polysWind_perm {c c' : List (List Pt)} (h : c.Perm c') (q : QPt) : polysWind c q = polysWind c' q := by
  unfold polysWind
  exact List.Perm.sum_eq (h.map _)

/-- The assumptions about the external parts: the collections and sorts do what they promise and the
cleaning of contours keeps winding numbers. -/
structure Assumed (k : Config) (x : Externals) : Prop where
  tree : k.tree.Ok
  scan : k.scan.Ok
  sortE : EndSort x.sortE
  clean : CleanOk x.clean

/-! ### C21 and C22 on a prepared graph -/

section
variable {rule : FillRule} {r : OverlayRule} {segs : List (Seg CountBool)} {g : Graph} {V : List Pt}
  {vis : List Bool} (h : RunOk rule r segs g V vis)
include h

/-- Without area limit: the walked contours are all returned, and traverse every unvisited link once. -/
theorem RunOk.extract_all (clockwise : Bool) {clean : List Pt → List Pt × Bool} (hc : CleanOk clean) :
    ∃ (ws : List Walked) (e : Extracted), extractContours g r clockwise clean 0 vis = some e ∧
      e.shapes = (ws.filter fun w => !w.hole).map (fun w => (clean w.raw).1) ∧
      e.holes = (ws.filter fun w => w.hole).map (fun w => (clean w.raw).1) ∧
      (∀ w ∈ ws, ClosedTrail g.links w.trail w.raw) ∧
      (∀ w ∈ ws.head?, w.hole = false) ∧
      (ws.flatMap (·.trail)).Perm ((List.range g.links.length).filter fun i => !isVisited vis i) := by
  obtain ⟨ws, e, h1, h2, h3, -, h5, h6, h7, h8, h9⟩ := h.extract clockwise clean 0
  have hval : ∀ w ∈ ws, (validate clean 0 w.raw).1 = true := by
    intro w hw
    exact validate_trail h.planar hc ((List.nodup_flatMap.1 h5).1 w hw) (h7 w hw).2 (h7 w hw).1
  have hk : ∀ b, keptContours clean 0 b ws = (ws.filter fun w => decide (w.hole = b)).map (fun w => (clean w.raw).1) := by
    intro b
    unfold keptContours
    congr 1
    refine List.filter_congr fun w hw => ?_
    rw [hval w hw, Bool.and_true]
  refine ⟨ws, e, h1, ?_, ?_, fun w hw => (h7 w hw).1, h8, ?_⟩
  · rw [h2, hk]
    congr 1
    refine List.filter_congr fun w _ => ?_
    cases w.hole <;> rfl
  · rw [h3, hk]
    congr 1
    refine List.filter_congr fun w _ => ?_
    cases w.hole <;> rfl
  · refine (List.perm_ext_iff_of_nodup h5 (List.nodup_range.filter _)).2 fun i => ?_
    rw [List.mem_filter, List.mem_range]
    constructor
    · intro hi
      have hv := h6 i hi
      have := unvisited_lt hv
      rw [h.length] at this
      exact ⟨this, by simp [hv]⟩
    · rintro ⟨-, hv⟩
      exact h9 hval i (by simpa using hv)

/-- The result of a whole extraction: every outer contour is the first contour of its shape, every hole
is in exactly one shape. -/
theorem RunOk.extract_shapes (clockwise : Bool) {x : Externals} (hc : CleanOk x.clean)
    {shapes : List (List (List Pt))} (he : IOverlay.extract x g r clockwise 0 vis = some shapes) :
    ∃ ws : List Walked, shapes.flatten.Perm (ws.map fun w => (x.clean w.raw).1) ∧
      (∀ w ∈ ws, ClosedTrail g.links w.trail w.raw) ∧
      (ws.flatMap (·.trail)).Perm ((List.range g.links.length).filter fun i => !isVisited vis i) := by
  obtain ⟨ws, e, h1, h2, h3, h4, h5, h6⟩ := h.extract_all clockwise hc
  refine ⟨ws, ?_, h4, h6⟩
  unfold IOverlay.extract at he
  rw [h1, Option.bind_some] at he
  dsimp only at he
  have hall : (e.shapes ++ e.holes).Perm (ws.map fun w => (x.clean w.raw).1) := by
    rw [h2, h3, ← List.map_append]
    refine List.Perm.map _ ?_
    refine List.Perm.trans ?_ (List.filter_append_perm (fun w : Walked => !w.hole) ws)
    refine List.Perm.append_left _ ?_
    refine List.Perm.of_eq (List.filter_congr fun w _ => ?_)
    simp
  by_cases hs : e.shapes = []
  · have hw : ws = [] := by
      rcases ws with _ | ⟨w, ws⟩
      · rfl
      · have := h5 w rfl
        rw [h2, List.filter_cons] at hs
        simp [this] at hs
    subst hw
    have hh : e.holes = [] := by rw [h3]; rfl
    rw [hs, hh] at he
    have : shapes = [] := by
      unfold joinSortedHoles at he
      simpa using he.symm
    rw [this]; exact List.Perm.refl _
  · obtain ⟨parents, p1, p2, p3⟩ := joinSortedHoles_spec he (by simpa using hs)
    have hp := attach_perm (e.shapes.map fun c => [c]) (e.holes.zip parents) (by
      intro y hy
      exact p2 _ (List.of_mem_zip hy).2)
    rw [← p3] at hp
    have e1 : (e.holes.zip parents).map (·.1) = e.holes := by
      rw [List.map_fst_zip]; omega
    have e2 : ∀ l : List (List Pt), (l.map fun c => [c]).flatten = l := by
      intro l; induction l <;> simp_all
    rw [e1, e2] at hp
    exact hp.trans hall

/-- Parity of the returned contours around any point. -/
theorem RunOk.parity (clockwise : Bool) {x : Externals} (hc : CleanOk x.clean)
    {shapes : List (List (List Pt))} (he : IOverlay.extract x g r clockwise 0 vis = some shapes) (q : QPt) :
    polysWind shapes.flatten q % 2 = 1 ↔
      r.op (rule.inside (segsWind CountBool.subj segs q)) (rule.inside (segsWind CountBool.clip segs q)) = true := by
  obtain ⟨ws, h1, h2, h3⟩ := h.extract_shapes clockwise hc he
  have hlt : ∀ l ∈ g.links, l.a < l.b := h.graph.lt
  have e1 : polysWind shapes.flatten q % 2 = if IOverlay.par (belowI g.links q) (ws.flatMap (·.trail)) then 1 else 0 := by
    rw [polysWind_perm h1]
    clear h1 h3
    unfold polysWind
    induction ws with
    | nil => rfl
    | cons w ws ih =>
      have ih := ih fun w hw => h2 w (List.mem_cons_of_mem _ hw)
      have hw := (h2 w (by simp)).parity hlt q
      rw [List.map_cons, List.map_cons, List.sum_cons, List.flatMap_cons, par_append, hc, Int.add_emod, hw, ih]
      cases IOverlay.par (belowI g.links q) w.trail <;> cases IOverlay.par (belowI g.links q) (ws.flatMap (·.trail)) <;> rfl
  have e2 : IOverlay.par (belowI g.links q) (ws.flatMap (·.trail)) =
      IOverlay.par (keptB rule r segs) (segs.filter fun f =>
          decide ((f.a.x:ℚ) ≤ q.x ∧ q.x < f.b.x ∧ ht f q.x < q.y)) := by
    rw [par_perm _ h3, par_filter, h.par (fun a b => belowB q ⟨a, 0, b, 0, 0#8⟩) (belowI g.links q), par_filter]
    · refine par_congr fun s _ => ?_
      rw [Bool.and_comm]
      congr 1
    · intro i l hl
      unfold belowI
      rw [hl]; rfl
  have e3 := ray_parity h.edges.planar h.edges.subj h.edges.clip rule r q
  rw [ruleAt_zero, Bool.false_xor] at e3
  have e4 : (if IOverlay.par (belowI g.links q) (ws.flatMap (·.trail)) then (1:Int) else 0) = 1 ↔
      IOverlay.par (belowI g.links q) (ws.flatMap (·.trail)) = true := by
    cases IOverlay.par (belowI g.links q) (ws.flatMap (·.trail)) <;> simp
  rw [e1, e4, e2, ← e3]
  rfl

end


/-! ### C01 -/

theorem extract_oneShot {k : Config} {x : Externals} (ha : Assumed k x) {r : OverlayRule} {rule : FillRule}
    {cw : Bool} {minArea : Nat} {subj clip : List (List Pt)} (hf : FragFor k subj clip) {shapes : List (List (List Pt))}
    (h : overlayCustom k x r rule cw minArea (overlaySegments subj clip) = some shapes) :
    ∃ segs g V vis, nodedEdges k.st k.sr k.tree k.fuel (overlaySegments subj clip) = some segs ∧
      RunOk rule r segs g V vis ∧ extract x g r cw minArea vis = some shapes := by
  unfold overlayCustom at h
  obtain ⟨links, h1, h⟩ := Option.bind_eq_some_iff.1 h
  obtain ⟨g, h2, h⟩ := Option.bind_eq_some_iff.1 h
  obtain ⟨segs, g', V, q1, q2, -, q4⟩ := runOk_oneShot ha.tree ha.scan ha.sortE hf h1
  rw [h2] at q2
  obtain rfl := Option.some.inj q2
  exact ⟨segs, g, V, _, q1, q4, h⟩

theorem extract_graph {k : Config} {x : Externals} (ha : Assumed k x) {r : OverlayRule} {rule : FillRule}
    {cw : Bool} {minArea : Nat} {subj clip : List (List Pt)} (hf : FragFor k subj clip) {g : Graph} {shapes : List (List (List Pt))}
    (hg : intoGraph k x rule (overlaySegments subj clip) = some g)
    (h : extractShapesCustom x g r cw minArea = some shapes) :
    ∃ segs V vis, nodedEdges k.st k.sr k.tree k.fuel (overlaySegments subj clip) = some segs ∧
      RunOk rule r segs g V vis ∧ extract x g r cw minArea vis = some shapes := by
  unfold intoGraph at hg
  obtain ⟨links, h1, h2⟩ := Option.bind_eq_some_iff.1 hg
  obtain ⟨segs, g', V, q1, q2, -, q4⟩ := runOk_graph ha.tree ha.scan r ha.sortE hf h1
  rw [h2] at q2
  obtain rfl := Option.some.inj q2
  exact ⟨segs, V, _, q1, q4, h⟩

/-- C01 (one-shot overlay, no area limit): a point lies inside an odd number of returned contours
exactly when the overlay rule holds for "inside subject" and "inside clip", these being the fill rule
applied to the winding numbers of the noded edges. -/
theorem C01_overlay (k : Config) (x : Externals) (ha : Assumed k x) (r : OverlayRule) (rule : FillRule)
    (cw : Bool) (subj clip : List (List Pt)) (hf : FragFor k subj clip) (shapes : List (List (List Pt)))
    (h : overlayCustom k x r rule cw 0 (overlaySegments subj clip) = some shapes) :
    ∃ segs, nodedEdges k.st k.sr k.tree k.fuel (overlaySegments subj clip) = some segs ∧
      ∀ q : QPt, polysWind shapes.flatten q % 2 = 1 ↔
        r.op (rule.inside (segsWind CountBool.subj segs q)) (rule.inside (segsWind CountBool.clip segs q)) = true := by
  obtain ⟨segs, g, V, vis, h1, h2, h3⟩ := extract_oneShot ha hf h
  exact ⟨segs, h1, h2.parity cw ha.clean h3⟩

/-- C01 (prebuilt graph, any rule extracted from it). -/
theorem C01_graph (k : Config) (x : Externals) (ha : Assumed k x) (r : OverlayRule) (rule : FillRule)
    (cw : Bool) (subj clip : List (List Pt)) (hf : FragFor k subj clip) (g : Graph) (shapes : List (List (List Pt)))
    (hg : intoGraph k x rule (overlaySegments subj clip) = some g)
    (h : extractShapesCustom x g r cw 0 = some shapes) :
    ∃ segs, nodedEdges k.st k.sr k.tree k.fuel (overlaySegments subj clip) = some segs ∧
      ∀ q : QPt, polysWind shapes.flatten q % 2 = 1 ↔
        r.op (rule.inside (segsWind CountBool.subj segs q)) (rule.inside (segsWind CountBool.clip segs q)) = true := by
  obtain ⟨segs, V, vis, h1, h2, h3⟩ := extract_graph ha hf hg h
  exact ⟨segs, h1, h2.parity cw ha.clean h3⟩

theorem noded_input (sr : SnapRadius) (tree : TreeOracle CountBool) (fuel : Nat)
    (subj clip : List (List Pt)) (segs : List (Seg CountBool))
    (hns : ∀ c ∈ subj, NotClosedExplicitly c) (hnc : ∀ c ∈ clip, NotClosedExplicitly c)
    (hx : (roundMarks sr.radius (listPairs (mergeIfNeeded (sortSegs
      (overlaySegments subj clip : List (Seg CountBool)))))).2 = false)
    (he : nodedEdges .list sr tree fuel (overlaySegments subj clip) = some segs) (q : QPt) :
    segsWind CountBool.subj segs q = polysWind subj q ∧ segsWind CountBool.clip segs q = polysWind clip q := by
  unfold nodedEdges at he
  have h4 := C04_overlay_winding subj clip hns hnc q
  split at he
  · rename_i hem
    obtain rfl := Option.some.inj he
    rw [List.isEmpty_iff] at hem
    rw [hem] at h4
    exact ⟨h4.1, h4.2.1⟩
  · exact ⟨(C14_exact_split isComp_subj sr tree fuel _ segs (overlaySegments_lt subj clip) hx he q).trans h4.1,
      (C14_exact_split isComp_clip sr tree fuel _ segs (overlaySegments_lt subj clip) hx he q).trans h4.2.1⟩

/-- C01 (against the input itself): if no crossing point had to be rounded, a point lies inside an odd
number of returned contours exactly when the overlay rule holds for "inside subject" and "inside clip",
by the fill rule on the winding numbers of the given contours. -/
theorem C01_overlay_input (k : Config) (x : Externals) (ha : Assumed k x) (r : OverlayRule) (rule : FillRule)
    (cw : Bool) (subj clip : List (List Pt)) (hf : FragFor k subj clip) (shapes : List (List (List Pt)))
    (hst : k.st = .list)
    (hns : ∀ c ∈ subj, NotClosedExplicitly c) (hnc : ∀ c ∈ clip, NotClosedExplicitly c)
    (hx : (roundMarks k.sr.radius (listPairs (mergeIfNeeded (sortSegs
      (overlaySegments subj clip : List (Seg CountBool)))))).2 = false)
    (h : overlayCustom k x r rule cw 0 (overlaySegments subj clip) = some shapes) (q : QPt) :
    polysWind shapes.flatten q % 2 = 1 ↔
      r.op (rule.inside (polysWind subj q)) (rule.inside (polysWind clip q)) = true := by
  obtain ⟨segs, h1, h2⟩ := C01_overlay k x ha r rule cw subj clip hf shapes h
  rw [hst] at h1
  have e := noded_input k.sr k.tree k.fuel subj clip segs hns hnc hx h1 q
  rw [h2, e.1, e.2]

/-! ### C21 and C22 -/

/-- What is returned from a list of walked contours: outer contours first, in the order walked, each
followed by the holes attached to it; a contour is dropped when it is not valid. -/
def Returned (clean : List Pt → List Pt × Bool) (valid : List Pt → Bool) (ws : List Walked)
    (shapes : List (List (List Pt))) : Prop :=
  ∃ parents : List Nat,
    let outer := (ws.filter fun w => !w.hole && valid w.raw).map fun w => (clean w.raw).1
    let holes := (ws.filter fun w => w.hole && valid w.raw).map fun w => (clean w.raw).1
    (outer = [] ∧ shapes = []) ∨
    (parents.length = holes.length ∧ (∀ p ∈ parents, p < outer.length) ∧
      shapes = outer.mapIdx fun i c => c :: ((holes.zip parents).filter fun h => decide (h.2 = i)).map (·.1))

theorem RunOk.returned {rule : FillRule} {r : OverlayRule} {segs : List (Seg CountBool)} {g : Graph} {V : List Pt}
    {vis : List Bool} (h : RunOk rule r segs g V vis) (cw : Bool) {x : Externals} {minArea : Nat}
    {shapes : List (List (List Pt))} (he : IOverlay.extract x g r cw minArea vis = some shapes) :
    ∃ ws : List Walked, Returned x.clean (fun c => (validate x.clean minArea c).1) ws shapes ∧
      (∀ w ∈ ws, ClosedTrail g.links w.trail w.raw ∧ w.trail ≠ []) ∧
      (ws.flatMap (·.trail)).Nodup ∧
      (∀ i ∈ ws.flatMap (·.trail), isVisited vis i = false) ∧
      ((∀ w ∈ ws, (validate x.clean minArea w.raw).1 = true) →
        ∀ i, isVisited vis i = false → i ∈ ws.flatMap (·.trail)) := by
  obtain ⟨ws, e, h1, h2, h3, -, h5, h6, h7, -, h9⟩ := h.extract cw x.clean minArea
  refine ⟨ws, ?_, h7, h5, h6, h9⟩
  unfold IOverlay.extract at he
  rw [h1, Option.bind_some] at he
  dsimp only at he
  have hk : ∀ b, keptContours x.clean minArea b ws =
      (ws.filter fun w => (if b then w.hole else !w.hole) && (validate x.clean minArea w.raw).1).map
        (fun w => (x.clean w.raw).1) := by
    intro b
    unfold keptContours
    congr 1
    refine List.filter_congr fun w _ => ?_
    cases b <;> cases w.hole <;> simp
  rw [hk] at h2 h3
  simp only [Bool.false_eq_true, if_false, if_true] at h2 h3
  unfold Returned
  simp only [← h2, ← h3]
  by_cases hs : e.shapes = []
  · refine ⟨[], Or.inl ⟨hs, ?_⟩⟩
    rw [hs] at he
    unfold joinSortedHoles at he
    simpa using he.symm
  · obtain ⟨parents, p1, p2, p3⟩ := joinSortedHoles_spec he (by simpa using hs)
    refine ⟨parents, Or.inr ⟨p1, by simpa using p2, ?_⟩⟩
    rw [p3]
    unfold attach
    apply List.ext_getElem?
    intro i
    rw [List.getElem?_mapIdx, List.getElem?_mapIdx, List.getElem?_map]
    cases e.shapes[i]? <;> simp



/-- An edge written from left to right. -/
def leftToRight (e : Pt × Pt) : Pt × Pt := if e.1 < e.2 then e else (e.2, e.1)

theorem ClosedTrail.edges {links : List Link} (hlt : ∀ l ∈ links, l.a < l.b) {trail : List Nat} {pts : List Pt}
    (h : ClosedTrail links trail pts) :
    ((polyEdges pts).map leftToRight).map some = trail.map fun i => (links.map fun l => (l.a, l.b))[i]? := by
  unfold ClosedTrail at h
  generalize polyEdges pts = E at h
  induction h with
  | nil => rfl
  | @cons i e trail E h _ ih =>
    obtain ⟨l, h1, h2⟩ := h
    have hl := hlt l (List.mem_of_getElem? h1)
    rw [List.map_cons, List.map_cons, List.map_cons, ih, List.getElem?_map, h1]
    congr 1
    unfold leftToRight
    rcases h2 with rfl | rfl
    · simp [hl]
    · have : ¬ l.b < l.a := Pt.lt_asymm hl
      simp [this]

theorem walked_edges {links : List Link} (hlt : ∀ l ∈ links, l.a < l.b) (ws : List Walked)
    (h : ∀ w ∈ ws, ClosedTrail links w.trail w.raw) :
    ((ws.flatMap fun w => polyEdges w.raw).map leftToRight).map some =
      (ws.flatMap (·.trail)).map fun i => (links.map fun l => (l.a, l.b))[i]? := by
  induction ws with
  | nil => rfl
  | cons w ws ih =>
    rw [List.flatMap_cons, List.flatMap_cons, List.map_append, List.map_append, List.map_append,
      (h w (by simp)).edges hlt, ih fun w hw => h w (List.mem_cons_of_mem _ hw)]

theorem unvisited_edges {links : List Link} {vis : List Bool} (F : Fill → Bool) (hv : vis = links.map fun l => F l.fill) :
    ((List.range links.length).filter fun i => !isVisited vis i).map (fun i => (links.map fun l => (l.a, l.b))[i]?) =
      ((links.filter fun l => !F l.fill).map fun l => (l.a, l.b)).map some := by
  subst hv
  have hv : ∀ i, isVisited (links.map fun l => F l.fill) i = ((links[i]?).map fun l => F l.fill).getD true := by
    intro i
    unfold isVisited
    rw [List.getD_eq_getElem?_getD, List.getElem?_map]
  have e : ∀ (l : List (Option Link)), (∀ o ∈ l, o.isSome) →
      (l.filter fun o => !(o.map fun l => F l.fill).getD true).map (fun o => o.map fun l : Link => (l.a, l.b)) =
      (((l.filterMap id).filter fun l => !F l.fill).map fun l => (l.a, l.b)).map some := by
    intro l hl
    induction l with
    | nil => rfl
    | cons o l ih =>
      have ih := ih fun o ho => hl o (List.mem_cons_of_mem _ ho)
      have ho := hl o (by simp)
      obtain ⟨m, rfl⟩ := Option.isSome_iff_exists.1 ho
      rw [List.filter_cons, List.filterMap_cons]
      simp only [id, Option.map_some, Option.getD_some]
      rw [List.filter_cons]
      by_cases hF : F m.fill = true
      · rw [if_neg (by simp [hF]), if_neg (by simp [hF])]
        exact ih
      · rw [if_pos (by simpa using hF), if_pos (by simpa using hF), List.map_cons, List.map_cons, List.map_cons, ih]
        rfl
  have e2 := e ((List.range links.length).map fun i => links[i]?) (by
    intro o ho
    obtain ⟨i, hi, rfl⟩ := List.mem_map.1 ho
    rw [List.getElem?_eq_getElem (List.mem_range.1 hi)]; rfl)
  rw [List.filter_map, List.map_map, range_map_get] at e2
  have : (links.map some).filterMap id = links := by
    rw [List.filterMap_map]
    simp
  rw [this] at e2
  rw [← e2]
  have ef : (fun i => !isVisited (links.map fun l => F l.fill) i) =
      ((fun o : Option Link => !(o.map fun l => F l.fill).getD true) ∘ fun i => links[i]?) := by
    funext i
    rw [hv]; rfl
  rw [ef]
  refine List.map_congr_left fun i _ => ?_
  rw [List.getElem?_map]; rfl

theorem map_some_perm {α : Type} {l l' : List α} (h : (l.map some).Perm (l'.map some)) : l.Perm l' := by
  have := h.filterMap id
  simpa [List.filterMap_map] using this

theorem RunOk.edges_once {rule : FillRule} {r : OverlayRule} {segs : List (Seg CountBool)} {g : Graph} {V : List Pt}
    {F : Fill → Bool} (h : RunOk rule r segs g V (g.links.map fun l => F l.fill)) (cw : Bool) {x : Externals}
    (hc : CleanOk x.clean) {shapes : List (List (List Pt))}
    (he : IOverlay.extract x g r cw 0 (g.links.map fun l => F l.fill) = some shapes) :
    ∃ contours : List (List Pt), shapes.flatten.Perm (contours.map fun c => (x.clean c).1) ∧
      ((contours.flatMap polyEdges).map leftToRight).Perm
        ((g.links.filter fun l => !F l.fill).map fun l => (l.a, l.b)) := by
  obtain ⟨ws, h1, h2, h3⟩ := h.extract_shapes cw hc he
  refine ⟨ws.map (·.raw), by rw [List.map_map]; exact h1, ?_⟩
  rw [List.flatMap_map]
  apply map_some_perm
  rw [walked_edges h.graph.lt ws h2, ← unvisited_edges F rfl]
  exact h3.map _

/-- C21 (one-shot overlay): the returned contours are the cleaned versions of closed contours whose
edges, put together, are exactly the kept edges, each once. -/
theorem C21_edges_once (k : Config) (x : Externals) (ha : Assumed k x) (r : OverlayRule) (rule : FillRule)
    (cw : Bool) (subj clip : List (List Pt)) (hf : FragFor k subj clip) (shapes : List (List (List Pt)))
    (h : overlayCustom k x r rule cw 0 (overlaySegments subj clip) = some shapes) :
    ∃ (links : List Link) (contours : List (List Pt)),
      buildBoolean (isIncluded r) rule k.st k.sr k.tree k.scan k.fuel (overlaySegments subj clip) = some links ∧
      shapes.flatten.Perm (contours.map fun c => (x.clean c).1) ∧
      ((contours.flatMap polyEdges).map leftToRight).Perm (links.map fun l => (l.a, l.b)) := by
  unfold overlayCustom at h
  obtain ⟨links, h1, h⟩ := Option.bind_eq_some_iff.1 h
  obtain ⟨g, h2, h⟩ := Option.bind_eq_some_iff.1 h
  obtain ⟨segs, g', V, -, q2, q3, q4⟩ := runOk_oneShot ha.tree ha.scan ha.sortE hf h1
  rw [h2] at q2
  obtain rfl := Option.some.inj q2
  have ev : List.replicate g.links.length false = g.links.map fun l => (fun _ => false) l.fill := by
    rw [List.map_const']
  rw [ev] at q4 h
  obtain ⟨contours, c1, c2⟩ := RunOk.edges_once (F := fun _ => false) q4 cw ha.clean h
  refine ⟨links, contours, h1, c1, ?_⟩
  have e := congrArg (List.map fun t : Pt × Pt × Fill => (t.1, t.2.1)) q3
  rw [List.map_map, List.map_map] at e
  have e' : (links.map fun l => (l.a, l.b)) = g.links.map fun l => (l.a, l.b) := e.symm
  rw [e']
  simpa using c2

/-- C21 (prebuilt graph): the same for the edges of the graph that the rule keeps. -/
theorem C21_edges_once_graph (k : Config) (x : Externals) (ha : Assumed k x) (r : OverlayRule) (rule : FillRule)
    (cw : Bool) (subj clip : List (List Pt)) (hf : FragFor k subj clip) (g : Graph) (shapes : List (List (List Pt)))
    (hg : intoGraph k x rule (overlaySegments subj clip) = some g)
    (h : extractShapesCustom x g r cw 0 = some shapes) :
    ∃ contours : List (List Pt), shapes.flatten.Perm (contours.map fun c => (x.clean c).1) ∧
      ((contours.flatMap polyEdges).map leftToRight).Perm
        ((g.links.filter fun l => isIncluded r l.fill).map fun l => (l.a, l.b)) := by
  unfold intoGraph at hg
  obtain ⟨links, h1, h2⟩ := Option.bind_eq_some_iff.1 hg
  obtain ⟨segs, g', V, -, q2, q3, q4⟩ := runOk_graph ha.tree ha.scan r ha.sortE hf h1
  rw [h2] at q2
  obtain rfl := Option.some.inj q2
  obtain ⟨contours, c1, c2⟩ := RunOk.edges_once (F := maskFilter r) q4 cw ha.clean h
  refine ⟨contours, c1, ?_⟩
  have : (g.links.filter fun l => isIncluded r l.fill) = g.links.filter fun l => !maskFilter r l.fill := by
    refine List.filter_congr fun l hl => ?_
    obtain ⟨inc, F, e1, -, -⟩ := q4.filter
    obtain ⟨segs', he', -, rfl⟩ := buildBoolean_spec ha.tree ha.scan hf h1
    have hm : (l.a, l.b, l.fill) ∈ g.links.map (fun l => (l.a, l.b, l.fill)) :=
      List.mem_map_of_mem (f := fun l : Link => (l.a, l.b, l.fill)) hl
    rw [q3, List.map_map] at hm
    obtain ⟨s, hs, he⟩ := List.mem_map.1 hm
    rw [List.mem_filter] at hs
    simp only [Function.comp, Prod.mk.injEq] at he
    rw [← he.2.2, ← C11_graph_filter r _ (fillOf_lt rule segs' s), hs.2]
    simp
  rw [this]
  exact c2

/-- C22: for every graph built from contours and every rule, direction, area limit and cleaning
function, the extraction finishes without running out of candidates: every single walk ends after at
most as many steps as there are edges, the main loop after at most two steps per edge. -/
theorem C22_terminates (k : Config) (x : Externals) (ha : Assumed k x) (rule : FillRule)
    (subj clip : List (List Pt)) (hf : FragFor k subj clip) (g : Graph)
    (hg : intoGraph k x rule (overlaySegments subj clip) = some g)
    (r : OverlayRule) (cw : Bool) (minArea : Nat) :
    ∃ e, extractLoop g r cw x.clean minArea (2 * g.links.length + 1) 0
      (g.links.map fun l => maskFilter r l.fill) Extracted.empty = some e := by
  unfold intoGraph at hg
  obtain ⟨links, h1, h2⟩ := Option.bind_eq_some_iff.1 hg
  obtain ⟨segs, g', V, -, q2, q3, q4⟩ := runOk_graph ha.tree ha.scan r ha.sortE hf h1
  rw [h2] at q2
  obtain rfl := Option.some.inj q2
  obtain ⟨ws, e, h, -⟩ := q4.extract cw x.clean minArea
  refine ⟨e, ?_⟩
  unfold extractContours at h
  rwa [List.length_map] at h

/-- C22 (one-shot overlay). -/
theorem C22_terminates_overlay (k : Config) (x : Externals) (ha : Assumed k x) (rule : FillRule) (r : OverlayRule)
    (subj clip : List (List Pt)) (hf : FragFor k subj clip) (links : List Link)
    (hb : buildBoolean (isIncluded r) rule k.st k.sr k.tree k.scan k.fuel (overlaySegments subj clip) = some links)
    (cw : Bool) (minArea : Nat) :
    ∃ g e, Graph.new x.sortE links = some g ∧
      extractLoop g r cw x.clean minArea (2 * g.links.length + 1) 0
        (List.replicate g.links.length false) Extracted.empty = some e := by
  obtain ⟨segs, g, V, -, q2, q3, q4⟩ := runOk_oneShot ha.tree ha.scan ha.sortE hf hb
  obtain ⟨ws, e, h, -⟩ := q4.extract cw x.clean minArea
  refine ⟨g, e, q2, ?_⟩
  unfold extractContours at h
  rwa [List.length_replicate] at h

/-! ### C24 -/

/-- The documented area filter: at least three points, and an area (rounded down) of at least the
minimum. -/
def LargeEnough (minArea : Nat) (c : List Pt) : Prop :=
  3 ≤ c.length ∧ minArea ≤ (doubleArea c).natAbs / 2

theorem validate_iff (clean : List Pt → List Pt × Bool) (minArea : Nat) (c : List Pt) :
    (validate clean minArea c).1 = true ↔ LargeEnough minArea (clean c).1 := by
  unfold validate LargeEnough
  dsimp only
  split
  · rename_i h
    constructor
    · intro h'; exact absurd h' (by simp)
    · rintro ⟨h', -⟩; omega
  · rename_i h
    split
    · rename_i h0
      subst h0
      simp only [Nat.zero_le, and_true, true_iff]
      omega
    · rw [decide_eq_true_iff]
      constructor
      · intro h'; exact ⟨by omega, h'⟩
      · exact fun h' => h'.2

open Classical in
/-- C24 (partial): of the closed contours walked, exactly those are returned that are large enough after
cleaning, outer contours as shapes, holes inside them; no edge is walked twice. Missing: with a positive
area limit the walked contours need not cover all kept edges (see `C24_area_filter_refuted`). -/
theorem C24_area_filter_partial (k : Config) (x : Externals) (ha : Assumed k x) (r : OverlayRule)
    (rule : FillRule) (cw : Bool) (minArea : Nat) (subj clip : List (List Pt)) (hf : FragFor k subj clip) (shapes : List (List (List Pt)))
    (h : overlayCustom k x r rule cw minArea (overlaySegments subj clip) = some shapes) :
    ∃ (links : List Link) (contours : List Walked),
      buildBoolean (isIncluded r) rule k.st k.sr k.tree k.scan k.fuel (overlaySegments subj clip) = some links ∧
      Returned x.clean (fun c => decide (LargeEnough minArea (x.clean c).1)) contours shapes ∧
      ((contours.flatMap fun w => polyEdges w.raw).map leftToRight).Nodup ∧
      (∀ e ∈ (contours.flatMap fun w => polyEdges w.raw).map leftToRight, e ∈ links.map fun l => (l.a, l.b)) ∧
      ((∀ w ∈ contours, LargeEnough minArea (x.clean w.raw).1) →
        ((contours.flatMap fun w => polyEdges w.raw).map leftToRight).Perm (links.map fun l => (l.a, l.b))) := by
  unfold overlayCustom at h
  obtain ⟨links, h1, h⟩ := Option.bind_eq_some_iff.1 h
  obtain ⟨g, h2, h⟩ := Option.bind_eq_some_iff.1 h
  obtain ⟨segs, g', V, -, q2, q3, q4⟩ := runOk_oneShot ha.tree ha.scan ha.sortE hf h1
  rw [h2] at q2
  obtain rfl := Option.some.inj q2
  obtain ⟨ws, w1, w2, w3, w4, w5⟩ := q4.returned cw h
  have e := congrArg (List.map fun t : Pt × Pt × Fill => (t.1, t.2.1)) q3
  rw [List.map_map, List.map_map] at e
  have e' : (links.map fun l => (l.a, l.b)) = g.links.map fun l => (l.a, l.b) := e.symm
  have hv : (fun c => (validate x.clean minArea c).1) = fun c => decide (LargeEnough minArea (x.clean c).1) := by
    funext c
    rw [Bool.eq_iff_iff, validate_iff, decide_eq_true_iff]
  have hE := walked_edges q4.graph.lt ws fun w hw => (w2 w hw).1
  have hlen : ∀ i ∈ ws.flatMap (·.trail), i < g.links.length := by
    intro i hi
    have := unvisited_lt (w4 i hi)
    rwa [q4.length] at this
  have hnd : (g.links.map fun l => (l.a, l.b)).Nodup := by
    have hp := q4.planar
    rw [List.nodup_iff_pairwise_ne, List.pairwise_map]
    have := hp.sorted
    rw [List.pairwise_map] at this
    refine this.imp fun {l m} hlm he => ?_
    have e1 : (Link.seg l) = Link.seg m := by
      unfold Link.seg
      simp only [Prod.mk.injEq] at he
      rw [he.1, he.2]
    rw [e1] at hlm
    exact Seg.lt_irrefl _ hlm
  refine ⟨links, ws, h1, hv ▸ w1, ?_, ?_, ?_⟩
  · have hn : (((ws.flatMap fun w => polyEdges w.raw).map leftToRight).map some).Nodup := by
      rw [hE]
      refine List.Nodup.map_on ?_ w3
      intro i hi j hj hij
      exact (List.getElem?_inj (by rw [List.length_map]; exact hlen i hi) hnd).1 hij
    exact List.Nodup.of_map _ hn
  · intro y hy
    have := List.mem_map_of_mem (f := some) hy
    rw [hE] at this
    obtain ⟨i, hi, hi'⟩ := List.mem_map.1 this
    rw [e']
    exact List.mem_of_getElem? hi'
  · intro hall
    have hc := w5 fun w hw => (validate_iff _ _ _).2 (hall w hw)
    apply map_some_perm
    rw [hE, e']
    refine List.Perm.trans (List.Perm.map _ ?_) (List.Perm.of_eq ?_) (l₂ := (List.range g.links.length).map
      fun i => (g.links.map fun l => (l.a, l.b))[i]?)
    · refine (List.perm_ext_iff_of_nodup w3 List.nodup_range).2 fun i => ?_
      rw [List.mem_range]
      refine ⟨hlen i, fun hi => hc i ?_⟩
      unfold isVisited
      rw [List.getD_eq_getElem?_getD, List.getElem?_replicate]
      simp [hi]
    · have := range_map_get (g.links.map fun l => (l.a, l.b))
      rwa [List.length_map] at this



/-! ### C25 -/

/-- C25 (sorted anchors, used by the extraction): all shapes are kept in order, each is extended at its
end only, by the holes whose parent it is; every hole is in exactly one shape. -/
theorem C25_join_sorted (o : BindOracle) (sortI : List IdSeg → List IdSeg) (shapes : List (List (List Pt)))
    (holes : List (List Pt)) (anchors : List IdSeg) (cw : Bool) (r : List (List (List Pt)))
    (hs : shapes ≠ []) (h : joinSortedHoles o sortI shapes holes anchors cw = some r) :
    r.flatten.Perm (shapes.flatten ++ holes) ∧
    ∃ parents : List Nat, parents.length = holes.length ∧ (∀ p ∈ parents, p < shapes.length) ∧
      r = shapes.mapIdx fun i s => s ++ ((holes.zip parents).filter fun h => decide (h.2 = i)).map (·.1) := by
  obtain ⟨parents, p1, p2, p3⟩ := joinSortedHoles_spec h hs
  refine ⟨?_, parents, p1, p2, p3⟩
  have hp := attach_perm shapes (holes.zip parents) (by
    intro y hy
    exact p2 _ (List.of_mem_zip hy).2)
  rw [← p3, List.map_fst_zip (by omega)] at hp
  exact hp

/-- C25 (unsorted holes, used by slicing). -/
theorem C25_join_unsorted (o : BindOracle) (sortI : List IdSeg → List IdSeg) (shapes : List (List (List Pt)))
    (holes : List (List Pt)) (cw : Bool) (r : List (List (List Pt)))
    (hs : shapes ≠ []) (h : joinUnsortedHoles o sortI shapes holes cw = some r) :
    r.flatten.Perm (shapes.flatten ++ holes) ∧
    ∃ parents : List Nat, parents.length = holes.length ∧ (∀ p ∈ parents, p < shapes.length) ∧
      r = shapes.mapIdx fun i s => s ++ ((holes.zip parents).filter fun h => decide (h.2 = i)).map (·.1) := by
  obtain ⟨parents, p1, p2, p3⟩ := joinUnsortedHoles_spec h hs
  refine ⟨?_, parents, p1, p2, p3⟩
  have hp := attach_perm shapes (holes.zip parents) (by
    intro y hy
    exact p2 _ (List.of_mem_zip hy).2)
  rw [← p3, List.map_fst_zip (by omega)] at hp
  exact hp

/-- C25 (whole overlay, no area limit): there is no hole without an outer contour: the first contour
walked is an outer one, so no contour is lost. -/
theorem C25_no_contour_lost (k : Config) (x : Externals) (ha : Assumed k x) (r : OverlayRule) (rule : FillRule)
    (cw : Bool) (subj clip : List (List Pt)) (hf : FragFor k subj clip) (shapes : List (List (List Pt)))
    (h : overlayCustom k x r rule cw 0 (overlaySegments subj clip) = some shapes) :
    ∃ (g : Graph) (e : Extracted), 
      extractContours g r cw x.clean 0 (List.replicate g.links.length false) = some e ∧
      shapes.flatten.Perm (e.shapes ++ e.holes) ∧ shapes.map List.head? = e.shapes.map some := by
  unfold overlayCustom at h
  obtain ⟨links, h1, h⟩ := Option.bind_eq_some_iff.1 h
  obtain ⟨g, h2, h⟩ := Option.bind_eq_some_iff.1 h
  obtain ⟨segs, g', V, -, q2, q3, q4⟩ := runOk_oneShot ha.tree ha.scan ha.sortE hf h1
  rw [h2] at q2
  obtain rfl := Option.some.inj q2
  obtain ⟨ws, e, w1, w2, w3, w4, w5, w6⟩ := q4.extract_all cw ha.clean
  refine ⟨g, e, w1, ?_⟩
  unfold extract at h
  rw [w1, Option.bind_some] at h
  dsimp only at h
  have e2 : ∀ l : List (List Pt), (l.map fun c => [c]).flatten = l := by
    intro l; induction l <;> simp_all
  by_cases hs : e.shapes = []
  · have hw : ws = [] := by
      rcases ws with _ | ⟨w, ws⟩
      · rfl
      · have := w5 w rfl
        rw [w2, List.filter_cons] at hs
        simp [this] at hs
    subst hw
    have hh : e.holes = [] := by rw [w3]; rfl
    rw [hs, hh] at h ⊢
    have : shapes = [] := by
      unfold joinSortedHoles at h
      simpa using h.symm
    rw [this]; exact ⟨List.Perm.refl _, rfl⟩
  · obtain ⟨p, parents, -, -, p3⟩ := C25_join_sorted _ _ _ _ _ _ _ (by simpa using hs) h
    rw [e2] at p
    refine ⟨p, ?_⟩
    rw [p3]
    apply List.ext_getElem?
    intro i
    rw [List.getElem?_map, List.getElem?_mapIdx, List.getElem?_map, List.getElem?_map]
    cases e.shapes[i]? <;> rfl

/-! ### witnesses -/

/-- A cleaning function that removes the second point when the first three are collinear. -/
def cleanSecond (c : List Pt) : List Pt × Bool :=
  match c with
  | p :: p' :: p'' :: r => if area2 p p' p'' = 0 then (p :: p'' :: r, true) else (c, false)
  | _ => (c, false)

theorem cleanSecond_ok : CleanOk cleanSecond := by
  intro c q
  unfold cleanSecond
  split
  · split
    · rename_i p p' p'' r h
      have := edgeWind_add h q
      unfold polyWind polyEdges
      simp only [List.cons_append, List.zip_cons_cons, List.map_cons, List.sum_cons]
      rw [← this]; ring
    · rfl
  · rfl

/-- Solver parameters of the examples. -/
def exConfig : Config := ⟨.list, ⟨0, 1⟩, bruteTree CountBool, listScanOracle, 5⟩

/-- External parts of the examples; the scan of the binder is not used by them. -/
def exExternals : Externals := ⟨insertionEndSort, id, ⟨fun _ _ _ => none⟩, cleanSecond⟩

/-- The assumptions of C01, C21, C22, C24 and C25 are met by concrete collections. -/
theorem exAssumed : Assumed exConfig exExternals :=
  ⟨bruteTree_ok, listScanOracle_ok, insertionEndSort_ok, cleanSecond_ok⟩

/-- The xor of two crossing squares: both parts are found. -/
example : overlayCustom exConfig exExternals .xor .nonZero false 0
    (overlaySegments crossingSquares.1 crossingSquares.2) =
    some [[[⟨0, 10⟩, ⟨0, 0⟩, ⟨10, 0⟩, ⟨10, 5⟩, ⟨5, 5⟩, ⟨5, 10⟩]],
      [[⟨5, 15⟩, ⟨5, 10⟩, ⟨10, 10⟩, ⟨10, 5⟩, ⟨15, 5⟩, ⟨15, 15⟩]]] := by
  decide +kernel

/-- A square with a square hole (even-odd), a hole attached to its shape. -/
example : overlayCustom exConfig exExternals .subject .evenOdd false 0
    (overlaySegments [[⟨0, 0⟩, ⟨30, 0⟩, ⟨30, 30⟩, ⟨0, 30⟩], [⟨10, 10⟩, ⟨20, 10⟩, ⟨20, 20⟩, ⟨10, 20⟩]] []) =
    some [[[⟨0, 30⟩, ⟨0, 0⟩, ⟨30, 0⟩, ⟨30, 30⟩], [⟨10, 10⟩, ⟨10, 20⟩, ⟨20, 20⟩, ⟨20, 10⟩]]] := by
  decide +kernel

/-- The hypotheses of `C01_overlay_input` are met by the crossing squares. -/
example : exConfig.st = .list ∧ (∀ c ∈ crossingSquares.1, NotClosedExplicitly c) ∧
    (∀ c ∈ crossingSquares.2, NotClosedExplicitly c) ∧
    (roundMarks exConfig.sr.radius (listPairs (mergeIfNeeded (sortSegs
      (overlaySegments crossingSquares.1 crossingSquares.2 : List (Seg CountBool)))))).2 = false := by
  refine ⟨rfl, ?_, ?_, by decide +kernel⟩ <;> unfold NotClosedExplicitly crossingSquares <;> decide

/-- Three triangles with a common leftmost vertex (areas 3, 50 and 1470) and, in the second list, a
fourth one elsewhere. -/
def threeTriangles : List (List Pt) :=
  [[⟨0, 0⟩, ⟨3, 12⟩, ⟨2, 10⟩], [⟨0, 0⟩, ⟨101, 1⟩, ⟨101, 2⟩], [⟨0, 0⟩, ⟨1, -30⟩, ⟨100, -60⟩]]

/-- C24 is refuted: with minimum area 100 the union of three triangles touching in one point is empty
although one of them has area 1470 (it is returned when it is alone, and without limit); with a fourth,
distant triangle it is even returned as a hole of that one. (After a contour that is too small the code
moves on to the next edge, although the edge it started from may not have been visited.) -/
theorem C24_area_filter_refuted :
    (doubleArea [⟨0, 0⟩, ⟨1, -30⟩, ⟨100, -60⟩]).natAbs / 2 = 1470 ∧
    overlayCustom exConfig exExternals .union .nonZero false 100 (overlaySegments threeTriangles []) = some [] ∧
    overlayCustom exConfig exExternals .union .nonZero false 100
      (overlaySegments [[⟨0, 0⟩, ⟨1, -30⟩, ⟨100, -60⟩]] []) = some [[[⟨100, -60⟩, ⟨0, 0⟩, ⟨1, -30⟩]]] ∧
    overlayCustom exConfig exExternals .union .nonZero false 0 (overlaySegments threeTriangles []) =
      some [[[⟨2, 10⟩, ⟨0, 0⟩, ⟨3, 12⟩]], [[⟨101, 2⟩, ⟨0, 0⟩, ⟨101, 1⟩]], [[⟨100, -60⟩, ⟨0, 0⟩, ⟨1, -30⟩]]] ∧
    overlayCustom exConfig exExternals .union .nonZero false 100
      (overlaySegments (threeTriangles ++ [[⟨200, 0⟩, ⟨300, 0⟩, ⟨200, 100⟩]]) []) =
      some [[[⟨200, 100⟩, ⟨200, 0⟩, ⟨300, 0⟩], [⟨0, 0⟩, ⟨1, -30⟩, ⟨100, -60⟩]]] := by
  decide +kernel


end IOverlay
