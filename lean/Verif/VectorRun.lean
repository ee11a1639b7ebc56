/-
The paths found by the vector extraction, whatever the degrees of the points. C46.
-/
import Verif.VectorLemmas
import Verif.Props.Extract

namespace IOverlay

theorem runOk_oneShot_mask {st : Strategy} {sr : SnapRadius} {tree : TreeOracle CountBool} (ht : tree.Ok)
    {sc : ScanOracle CountBool} (hsc : sc.Ok) {fuel : Nat} {rule : FillRule} {r : OverlayRule}
    {sortE : List End → List End} (hE : EndSort sortE) {subj clip : List (List Pt)} {links : List Link}
    (hf : FragOk st sr (overlaySegments subj clip : List (Seg CountBool)))
    (hb : buildBoolean (isIncluded r) rule st sr tree sc fuel (overlaySegments subj clip) = some links) :
    ∃ segs g V, nodedEdges st sr tree fuel (overlaySegments subj clip) = some segs ∧
      Graph.new sortE links = some g ∧
      g.links.map (fun l => (l.a, l.b, l.fill)) = links.map (fun l => (l.a, l.b, l.fill)) ∧
      RunOk rule r segs g V (g.links.map fun l => maskFilter r l.fill) := by
  obtain ⟨segs, he, hsg, hl⟩ := buildBoolean_spec ht hsc hf hb
  obtain ⟨g, V, h1, hg, h2⟩ := Graph.new_spec hE (buildBoolean_linksOk ht hsc hf hb)
  refine ⟨segs, g, V, hsg, h1, h2, he, hg, isIncluded r, maskFilter r, ?_, rfl, ?_⟩
  · rw [h2, hl, List.map_map]; rfl
  · intro s _
    have := C11_graph_filter r _ (fillOf_lt rule segs s)
    rw [← isIncluded_fillOf rule r, ← this]
    cases isGraphIncluded (fillOf rule segs s) <;> cases maskFilter r (fillOf rule segs s) <;> rfl

section
variable {rule : FillRule} {r : OverlayRule} {segs : List (Seg CountBool)} {R : Edge → Prop} {clockwise : Bool}
  {fs : List Found} {Φ : Bool → Pt × Pt → Int} {F : (Bool → Int) → Int}

/-- The result lies on the right of every edge walked (on the left if contours are counter-clockwise). -/
theorem RunTours.edge_sides (h : RunTours rule r segs R clockwise fs Φ F) (hR : ∀ s, R s → s ∈ segs.map Seg.key) {f : Found}
    (hf : f ∈ fs) {p q : Pt} (he : (p, q) ∈ polyEdges f.raw) :
    ∃ s ∈ segs, (p = s.a ∧ q = s.b ∧ ruleAt rule r (botP segs s) = clockwise ∧ ruleAt rule r (botP segs s + cpair s) = !clockwise) ∨
      (p = s.b ∧ q = s.a ∧ ruleAt rule r (botP segs s) = !clockwise ∧ ruleAt rule r (botP segs s + cpair s) = clockwise) := by
  have hs := h.tours.sides h.planar h.keyed Φ h.closed F (by
    intro s hs hR
    by_contra hn
    exact hR ((h.jump s hs).1 hn)) f hf
  have hpe : ∃ U, TopTour (f.hole == clockwise) (segs.map Seg.key) U f.top f.darts ∧ (∀ s, U s → R s) := by
    clear hs
    have := h.tours
    obtain ⟨l1, l2, rfl⟩ := List.append_of_mem hf
    clear h
    induction l1 generalizing R with
    | nil =>
      rw [List.nil_append] at this
      cases this with
      | cons h1 h2 => exact ⟨_, h1, fun s hs => hs⟩
    | cons g l1 ih =>
      rw [List.cons_append] at this
      cases this with
      | cons h1 h2 =>
        obtain ⟨U, u1, u2⟩ := ih (fun s hs => hR s hs.1) (by simp) h2
        exact ⟨U, u1, fun s hs => (u2 s hs).1⟩
  obtain ⟨U, hT, hU⟩ := hpe
  obtain ⟨q0, ht⟩ := hT.tour
  unfold Found.raw at he
  rw [ht.polyEdges_eq] at he
  obtain ⟨d, hd, hde⟩ := List.mem_map.1 he
  have htop : f.top ∈ segs.map Seg.key ∧ R f.top := by
    have := hT.head_mem
    have := ht.mem _ this
    exact ⟨this.1, hU _ this.2⟩
  have hhole := h.hole f hf
  have hj := (h.jump f.top htop.1).2 htop.2
  have hbv : F (bvec Φ (segs.map Seg.key) f.top) = if f.hole then 0 else 1 := by
    rw [hhole] at hj
    rcases h.F01 (bvec Φ (segs.map Seg.key) f.top) with e | e <;> rw [e] at hj ⊢ <;> revert hj <;>
      cases f.hole <;> simp
  have h1 := hs d hd
  rw [hbv] at h1
  obtain ⟨m1, m2⟩ := ht.mem d hd
  have hj2 := (h.jump d.s m1).2 (hU _ m2)
  obtain ⟨s, hs1, hs2⟩ := List.mem_map.1 m1
  have hb := h.bot s hs1
  rw [hs2] at hb
  rw [hb.1, hb.2] at hj2
  have e1 : hugV (f.hole == clockwise) Φ (segs.map Seg.key) d =
      if d.fwd = (f.hole == clockwise) then bvec Φ (segs.map Seg.key) d.s + cvec Φ d.s else bvec Φ (segs.map Seg.key) d.s := by
    funext k
    unfold hugV hug
    split <;> simp [bvec, cvec]
  rw [e1] at h1
  have h2 : (if d.fwd = (f.hole == clockwise) then ruleAt rule r (botP segs s + cpair s) else ruleAt rule r (botP segs s)) = !f.hole := by
    revert h1
    split
    · rw [hb.2]; cases ruleAt rule r (botP segs s + cpair s) <;> cases f.hole <;> simp
    · rw [hb.1]; cases ruleAt rule r (botP segs s) <;> cases f.hole <;> simp
  have ea : d.s.a = s.a := by rw [← hs2]; rfl
  have eb : d.s.b = s.b := by rw [← hs2]; rfl
  refine ⟨s, hs1, ?_⟩
  unfold Dart.start Dart.finish at hde
  simp only [Prod.mk.injEq] at hde
  rw [ea, eb] at hde
  cases hfw : d.fwd <;> rw [hfw] at h2 hde <;> simp only [Bool.false_eq_true, if_false, if_true] at hde
  · refine Or.inr ⟨hde.1.symm, hde.2.symm, ?_⟩
    revert h2 hj2
    cases ruleAt rule r (botP segs s) <;> cases ruleAt rule r (botP segs s + cpair s) <;> cases f.hole <;> cases clockwise <;> simp
  · refine Or.inl ⟨hde.1.symm, hde.2.symm, ?_⟩
    revert h2 hj2
    cases ruleAt rule r (botP segs s) <;> cases ruleAt rule r (botP segs s + cpair s) <;> cases f.hole <;> cases clockwise <;> simp

end

section
variable {g : Graph} {V : List Pt} (hg : GraphOk g V)
include hg

/-- What the loop does in general: it ends, and the paths are closed and share no link. -/
theorem vectorLoop_spec (rule : OverlayRule) : ∀ (fuel li : Nat) (vis : List Bool) (v : VectorPaths),
    vis.length = g.links.length → (∀ n, dpar g vis n = false) → g.links.length - li < fuel →
    ∃ (v' : VectorPaths) (ws : List (List Nat × List VectorEdge)), vectorLoop g rule fuel li vis v = some v' ∧
      (v'.shapes.flatten ++ v'.holes).Perm (v.shapes.flatten ++ v.holes ++ ws.map (·.2)) ∧
      (ws.flatMap (·.1)).Nodup ∧ (∀ i ∈ ws.flatMap (·.1), isVisited vis i = false) ∧
      ∀ w ∈ ws, w.1 ≠ [] ∧ ClosedTrail g.links w.1 (toPath w.2) ∧ polyEdges (toPath w.2) = w.2.map (fun e => (e.a, e.b)) ∧
        ∀ e ∈ w.2, FromLink g vis e := by
  intro fuel
  induction fuel with
  | zero => intro li vis v _ _ h; omega
  | succ fuel ih =>
    intro li vis v hlen hd hf
    rw [vectorLoop]
    by_cases c1 : li < vis.length
    · rw [if_pos c1]
      by_cases c2 : isVisited vis li = true
      · rw [if_pos c2]
        exact ih (li + 1) vis v hlen hd (by omega)
      · rw [if_neg c2]
        have hv : isVisited vis li = false := by simpa using c2
        obtain ⟨lt, l, f1, f2, f3⟩ := findLeftTop_spec hg hd (by omega) hv
        rw [f1, Option.bind_some, f2, Option.bind_some]
        dsimp only
        obtain ⟨trail, pts, vis', g1, g2, g3, g4, g5, g6, g7, g8, -⟩ :=
          getContour_spec hg hd f2 f3 (isFillTop rule l.fill) (isFillTop rule l.fill)
        have hgv := getContour_vector g g.links.length (isFillTop rule l.fill) l lt (isFillTop rule l.fill) vis
        rw [g1] at hgv
        obtain ⟨p, p1, p2⟩ := Option.map_eq_some_iff.1 hgv.symm
        obtain ⟨p3, p4⟩ := getVectorPath_chain hg hd f2 f3 _ _ p1
        simp only [Prod.mk.injEq] at p2
        rw [p1, Option.bind_some]
        have hct : ClosedTrail g.links (lt :: trail) (toPath p.1) := by rw [p2.1]; exact g8.closed
        obtain ⟨v', ws, h1, h2, h3, h4, h5⟩ := ih (li + 1) vis' (if isFillTop rule l.fill then { v with holes := v.holes ++ [p.1] }
            else { v with shapes := v.shapes ++ [[p.1]] }) (by omega) g6 (by omega)
        refine ⟨v', (lt :: trail, p.1) :: ws, by rw [p2.2]; exact h1, ?_, ?_, ?_, ?_⟩
        · refine h2.trans ?_
          cases isFillTop rule l.fill
          · simp only [Bool.false_eq_true, if_false, List.flatten_append, List.flatten_cons, List.flatten_nil,
              List.append_nil, List.map_cons, List.append_assoc]
            refine List.Perm.append_left _ ?_
            rw [List.singleton_append]
            refine List.Perm.symm ?_
            exact List.perm_middle
          · simp
        · rw [List.flatMap_cons]
          refine List.nodup_append.2 ⟨g3, h3, ?_⟩
          rintro i hi j hj rfl
          have := h4 i hj
          rw [g5] at this
          simp only [Bool.or_eq_false_iff, decide_eq_false_iff_not] at this
          exact this.2 hi
        · intro i hi
          rw [List.flatMap_cons] at hi
          rcases List.mem_append.1 hi with h | h
          · exact g4 i h
          · have := h4 i h
            rw [g5] at this
            exact (Bool.or_eq_false_iff.1 this).1
        · intro w hw
          rcases List.mem_cons.1 hw with rfl | hw
          · exact ⟨by simp, hct, p3, p4⟩
          · obtain ⟨a0, a1, a2, a3⟩ := h5 w hw
            refine ⟨a0, a1, a2, fun e he => ?_⟩
            obtain ⟨i, m, i1, i2, i3⟩ := a3 e he
            refine ⟨i, m, i1, ?_, i3⟩
            rw [g5] at i2
            exact (Bool.or_eq_false_iff.1 i2).1
    · rw [if_neg c1]
      exact ⟨v, [], rfl, by simp, by simp, by simp, by simp⟩

end

/-! ### attaching holes -/

theorem vectorJoin_spec {o : BindOracle} {sortX : List IdSeg → List IdSeg} {shapes : List (List (List VectorEdge))}
    {holes : List (List VectorEdge)} {cw : Bool} {r : List (List (List VectorEdge))}
    (h : vectorJoin o sortX shapes holes cw = some r) (hs : shapes ≠ []) :
    ∃ parents : List Nat, parents.length = holes.length ∧ (∀ p ∈ parents, p < shapes.length) ∧
      r = attach shapes (holes.zip parents) := by
  have hn : 0 < shapes.length := List.length_pos_iff.2 hs
  unfold vectorJoin at h
  split at h
  · rename_i hc
    obtain rfl := Option.some.inj h
    rcases holes with _ | ⟨x, holes⟩
    · exact ⟨[], rfl, by simp, by rw [List.zip_nil_left, attach_nil]⟩
    · simp [hs] at hc
  · split at h
    · rename_i s _
      obtain rfl := Option.some.inj h
      exact ⟨List.replicate holes.length 0, by simp, by simp, attach_single s holes⟩
    · unfold vectorScanJoin at h
      obtain ⟨an, -, h⟩ := Option.bind_eq_some_iff.1 h
      obtain ⟨f, -, h⟩ := Option.bind_eq_some_iff.1 h
      obtain ⟨l, -, h⟩ := Option.bind_eq_some_iff.1 h
      obtain ⟨ps, h1, h⟩ := Option.bind_eq_some_iff.1 h
      split at h
      · rename_i hl
        obtain ⟨b1, b2⟩ := bindLoop_spec o _ _ _ _ _ _ h1 (by
          intro p hp
          rw [(List.mem_replicate.1 hp).2]; exact hn)
        refine ⟨ps.take holes.length, by rw [List.length_take]; omega, fun p hp => b2 p (List.mem_of_mem_take hp), ?_⟩
        have e : holes.zip ps = holes.zip (ps.take holes.length) := by
          conv_lhs => rw [← List.take_append_drop holes.length ps, List.zip_eq_zipWith]
          rw [List.zip_eq_zipWith]
          have : holes = holes ++ [] := by simp
          conv_lhs => rw [this]
          rw [List.zipWith_append (by simp; omega)]
          simp
        rw [e, pushHoles_spec] at h
        · exact (Option.some.inj h).symm
        · intro y hy
          exact b2 _ (List.mem_of_mem_take (List.of_mem_zip hy).2)
      · exact absurd h (by simp)

/-- The paths of the shapes together. -/
theorem vectorJoin_perm {o : BindOracle} {sortX : List IdSeg → List IdSeg} {shapes : List (List (List VectorEdge))}
    {holes : List (List VectorEdge)} {cw : Bool} {r : List (List (List VectorEdge))}
    (h : vectorJoin o sortX shapes holes cw = some r) (hs : shapes ≠ []) :
    r.flatten.Perm (shapes.flatten ++ holes) := by
  obtain ⟨ps, p1, p2, rfl⟩ := vectorJoin_spec h hs
  have := attach_perm shapes (holes.zip ps) (by
    intro y hy
    exact p2 _ (List.of_mem_zip hy).2)
  rwa [List.map_fst_zip (by omega)] at this

end IOverlay
