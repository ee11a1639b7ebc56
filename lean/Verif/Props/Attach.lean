/-
Properties C26 (the sweep gives every hole the shape owning the first edge below it) and C43 (holes lie in
their shape, holes of a shape do not overlap, shapes do not overlap).
-/
import Verif.AttachRun

namespace IOverlay

/-! ### C26 -/

/-- C26: the sweep over holes. `floor` are edges of the contours having the result above them, `anchors` the
lower edge at the leftmost vertex of each hole; all these edges are not vertical and meet in end points
only, except that the edge of a hole may also be an edge with the result above it. Given that below every anchor there is some edge, and that the first one belongs to a shape or to a hole
whose own anchor is earlier in the order of the sweep, the sweep succeeds, and the parent of each hole is the
shape owning the first edge below its anchor, or the parent of the hole owning that edge. -/
theorem C26_bind (o : BindOracle) (ho : o.Ok) (n : Nat) (hn : 0 < n) (floor anchors S : List IdSeg)
    (hb : BindInput floor anchors) (hS : S.Perm floor) (hsort : S.Pairwise fun x y => cmpByAThenAngle x y ≠ .gt)
    (hanc : anchors.Pairwise fun x y => cmpByAThenAngle x y ≠ .gt)
    (hidx : (anchors.map (·.c.index)).Perm (List.range anchors.length))
    (hfirst : ∀ l s r, anchors = l ++ s :: r → ∃ m, FirstBelow (· ∈ floor) s m ∧
      if m.c.hole then m.c.index ∈ l.map (·.c.index) else m.c.index < n) :
    ∃ parents, bindSolve o n anchors S = some parents ∧ parents.length = anchors.length ∧
      ∀ s ∈ anchors, ∀ m, FirstBelow (· ∈ floor) s m →
        parents[s.c.index]? = if m.c.hole then parents[m.c.index]? else some m.c.index := by
  have hnd : (anchors.map (·.c.index)).Nodup := hidx.nodup_iff.2 List.nodup_range
  obtain ⟨ps, p1, p2, -, -, p5⟩ := bindLoop_first hb ho hS hsort n anchors [] S [] (List.replicate anchors.length 0)
    (fun s hs => hs) hanc hnd
    (fun s hs => by
      rw [List.length_replicate]
      exact List.mem_range.1 (hidx.mem_iff.1 (List.mem_map_of_mem hs)))
    (fun p hp => by rw [List.eq_of_mem_replicate hp]; exact hn)
    ⟨by simp, by simp, by simp, by simp⟩
    (fun l s r he => by
      obtain ⟨m, m1, m2⟩ := hfirst l s r he
      refine ⟨m, m1, ?_, ?_⟩
      · intro hm; rw [hm] at m2; exact m2
      · intro hm
        rw [hm] at m2
        simp only [if_true] at m2
        rw [List.length_replicate]
        constructor
        · refine List.mem_range.1 (hidx.mem_iff.1 ?_)
          rw [he, List.map_append]
          exact List.mem_append_left _ m2
        · intro hc
          rw [he, List.map_append] at hnd
          exact (List.nodup_append.1 hnd).2.2 _ m2 _ hc rfl)
  rw [List.length_replicate] at p2
  exact ⟨ps, p1, p2, p5⟩

/-! ### C43 -/

/-- The holes lie inside the outer contour and do not overlap each other. -/
def ProperShape (sh : List (List Pt)) : Prop :=
  ∃ outer holes, sh = outer :: holes ∧
    (∀ c ∈ holes, ∀ q, polyWind c q ≠ 0 → polyWind outer q ≠ 0) ∧
    holes.Pairwise fun c c' => ∀ q, polyWind c q = 0 ∨ polyWind c' q = 0

/-- The contracts of the external parts used for attaching holes. -/
structure BindAssumed (x : Externals) : Prop where
  bind : x.bind.Ok
  sortI : SortsByA x.sortI
  keeps : Keeps x.clean

theorem sum_mult {t : Int} : ∀ l : List Int, (∀ v ∈ l, v = 0 ∨ v = t) → ∃ n : Nat, l.sum = n * t ∧
    (n = 0 → ∀ v ∈ l, v = 0) := by
  intro l
  induction l with
  | nil => intro _; exact ⟨0, by simp, by simp⟩
  | cons x l ih =>
    intro h
    obtain ⟨n, h1, h2⟩ := ih fun v hv => h v (by simp [hv])
    rcases h x (by simp) with hx | hx
    · refine ⟨n, by rw [List.sum_cons, hx, h1]; simp, ?_⟩
      intro hn v hv
      rcases List.mem_cons.1 hv with rfl | hv
      · exact hx
      · exact h2 hn v hv
    · exact ⟨n + 1, by rw [List.sum_cons, hx, h1]; push_cast; ring, by omega⟩

theorem at_most_one {t : Int} (ht : t ≠ 0) : ∀ l : List Int, (∀ v ∈ l, v = 0 ∨ v = t) → (l.sum = 0 ∨ l.sum = t) →
    l.Pairwise fun a b => a = 0 ∨ b = 0 := by
  intro l
  induction l with
  | nil => intros; exact List.Pairwise.nil
  | cons x l ih =>
    intro h hs
    obtain ⟨n, h1, h2⟩ := sum_mult l fun v hv => h v (by simp [hv])
    rw [List.sum_cons] at hs
    rcases h x (by simp) with hx | hx
    · refine List.pairwise_cons.2 ⟨fun v _ => Or.inl hx, ih (fun v hv => h v (by simp [hv])) ?_⟩
      rw [hx, zero_add] at hs
      exact hs
    · have hn : n = 0 := by
        by_contra hc
        have hpos : (1:Int) ≤ n := by omega
        rw [h1, hx] at hs
        have : t + n * t = (1 + n) * t := by ring
        rcases hs with hs | hs
        · rw [this] at hs
          rcases mul_eq_zero.1 hs with h | h
          · omega
          · exact ht h
        · have : (n:Int) * t = 0 := by linarith
          rcases mul_eq_zero.1 this with h | h
          · omega
          · exact ht h
      have hz := h2 hn
      refine List.pairwise_cons.2 ⟨fun v hv => Or.inr (hz v hv), ?_⟩
      exact List.Pairwise.imp_of_mem (fun {a b} ha _ _ => Or.inl (hz a ha)) (List.pairwise_of_forall (R := fun _ _ => True) fun _ _ => trivial)

theorem sum_one {t : Int} : ∀ l : List Int, (∀ v ∈ l, v = 0 ∨ v = t) → l.Pairwise (fun a b => a = 0 ∨ b = 0) →
    ((l.sum = 0 ∧ ∀ v ∈ l, v = 0) ∨ (l.sum = t ∧ t ∈ l)) := by
  intro l
  induction l with
  | nil => intros; left; simp
  | cons x l ih =>
    intro h hp
    obtain ⟨p1, p2⟩ := List.pairwise_cons.1 hp
    rw [List.sum_cons]
    by_cases hx : x = 0
    · rcases ih (fun v hv => h v (by simp [hv])) p2 with ⟨a, b⟩ | ⟨a, b⟩
      · left
        refine ⟨by omega, fun v hv => ?_⟩
        rcases List.mem_cons.1 hv with rfl | hv
        · exact hx
        · exact b v hv
      · right; exact ⟨by omega, by simp [b]⟩
    · right
      have hz : l.sum = 0 := List.sum_eq_zero fun v hv => (p1 v hv).resolve_left hx
      have := (h x (by simp)).resolve_left hx
      exact ⟨by omega, by simp [this]⟩

/-- A proper, oriented shape covers each point at most once. -/
theorem proper_wind {cw : Bool} {sh : List (List Pt)} (hp : ProperShape sh) (ho : OrientedShape cw sh) (q : QPt) :
    polysWind sh q = 0 ∨ polysWind sh q = outerTurn cw := by
  obtain ⟨outer, holes, rfl, h1, h2⟩ := hp
  obtain ⟨outer', holes', e, ⟨o1, -⟩, o2⟩ := ho
  obtain ⟨rfl, rfl⟩ := List.cons.inj e
  have e : polysWind (outer :: holes) q = polyWind outer q + (holes.map fun c => polyWind c q).sum := by
    unfold polysWind; simp
  rw [e]
  have hs := sum_one (t := - outerTurn cw) (holes.map fun c => polyWind c q)
    (by
      intro v hv
      obtain ⟨c, hc, rfl⟩ := List.mem_map.1 hv
      exact (o2 c hc).1 q)
    (by
      rw [List.pairwise_map]
      exact h2.imp fun h => h q)
  rcases hs with ⟨a, -⟩ | ⟨a, b⟩
  · rw [a, add_zero]; exact o1 q
  · obtain ⟨c, hc, hcq⟩ := List.mem_map.1 b
    have hne : polyWind c q ≠ 0 := by
      rw [hcq]; unfold outerTurn; cases cw <;> simp
    have := (o1 q).resolve_left (h1 c hc q hne)
    left
    rw [a, this]; ring

section
variable {rule : FillRule} {r : OverlayRule} {segs : List (Seg CountBool)} {g : Graph} {V : List Pt}
  {vis : List Bool} (h : RunOk rule r segs g V vis)
include h

theorem RunOk.shapes_proper (cw : Bool) {x : Externals} (hc : CleanOk x.clean) (hx : BindAssumed x) {e : Extracted}
    (he : extractContours g r cw x.clean 0 vis = some e) (hl : cw = false ∨ ∀ c ∈ e.holes, LeftmostOnce c) :
    ∃ shapes, IOverlay.extract x g r cw 0 vis = some shapes ∧ (∀ sh ∈ shapes, ProperShape sh) ∧
      (∀ sh ∈ shapes, ∀ q, polysWind sh q = 0 ∨ polysWind sh q = outerTurn cw) ∧
      shapes.Pairwise fun sh sh' => ∀ q, polysWind sh q = 0 ∨ polysWind sh' q = 0 := by
  obtain ⟨fs, Φ, F, parents, hR, e1, e2, e3, p1, p2, p3, p4⟩ := h.attached cw hc hx.keeps hx.bind hx.sortI he hl
  have hproper : ∀ sh ∈ attach (e.shapes.map fun c => [c]) (e.holes.zip parents), ProperShape sh := by
    intro sh hsh
    obtain ⟨i, hi, rfl⟩ := List.mem_mapIdx.1 hsh
    rw [List.getElem_map]
    have hi' : i < (outs fs).length := by rw [e1] at hi; simpa using hi
    have hraw : e.shapes[i]'(by simpa using hi) = (outs fs)[i].raw := by
      simp only [e1, List.getElem_map]
    refine ⟨e.shapes[i]'(by simpa using hi), _, rfl, ?_, ?_⟩
    · intro c hc' q hq
      obtain ⟨y, hy, rfl⟩ := List.mem_map.1 hc'
      rw [List.mem_filter] at hy
      obtain ⟨hy1, hy2⟩ := hy
      have hy2 : y.2 = i := by simpa using hy2
      obtain ⟨j, hj⟩ := List.getElem?_of_mem hy1
      rw [List.getElem?_zip_eq_some] at hj
      obtain ⟨j1, j2⟩ := hj
      rw [e2, List.getElem?_map] at j1
      obtain ⟨H, hH, hHr⟩ := Option.map_eq_some_iff.1 j1
      obtain ⟨p, O, q1, q2, q3⟩ := p4 j H hH
      rw [j2] at q1
      obtain rfl := Option.some.inj q1
      rw [hy2] at q2
      have hO : O = (outs fs)[i] := (List.getElem?_eq_some_iff.1 q2).2.symm
      obtain ⟨hH1, hH2⟩ := List.mem_filter.1 (List.mem_of_getElem? hH)
      obtain ⟨hO1, hO2⟩ := List.mem_filter.1 (List.mem_of_getElem? q2)
      rw [hraw, ← hO, e3 O hO1]
      have := hR.tours.hole_inside hR.planar hR.keyed hH1 hO1 hH2 (by simpa using hO2) q3 q (by
        rw [← e3 H hH1, hHr]; exact hq)
      rw [this]
      unfold outerTurn; cases cw <;> simp
    · change List.Pairwise _ (List.map _ (List.filter _ _))
      rw [List.pairwise_map]
      have hpw : (e.holes.zip parents).Pairwise fun y y' => y.2 = y'.2 → ∀ q, polyWind y.1 q = 0 ∨ polyWind y'.1 q = 0 := by
        rw [List.pairwise_iff_getElem]
        intro j j' hj hj' hlt heq q
        have g1 : (e.holes.zip parents)[j]? = some (e.holes.zip parents)[j] := List.getElem?_eq_getElem hj
        have g2 : (e.holes.zip parents)[j']? = some (e.holes.zip parents)[j'] := List.getElem?_eq_getElem hj'
        generalize (e.holes.zip parents)[j] = y at *
        generalize (e.holes.zip parents)[j'] = y' at *
        rw [List.getElem?_zip_eq_some] at g1 g2
        obtain ⟨a1, a2⟩ := g1
        obtain ⟨b1, b2⟩ := g2
        rw [e2, List.getElem?_map] at a1 b1
        obtain ⟨H, hH, hHr⟩ := Option.map_eq_some_iff.1 a1
        obtain ⟨H', hH', hHr'⟩ := Option.map_eq_some_iff.1 b1
        obtain ⟨p, O, q1, q2, q3⟩ := p4 j H hH
        obtain ⟨p', O', q1', q2', q3'⟩ := p4 j' H' hH'
        rw [a2] at q1
        rw [b2] at q1'
        obtain rfl := Option.some.inj q1
        obtain rfl := Option.some.inj q1'
        rw [heq] at q2
        rw [q2] at q2'
        obtain rfl := Option.some.inj q2'
        obtain ⟨hH1, hH2⟩ := List.mem_filter.1 (List.mem_of_getElem? hH)
        obtain ⟨hH1', hH2'⟩ := List.mem_filter.1 (List.mem_of_getElem? hH')
        have hnd := hR.tours.found_nodup hR.planar
        have hne : H ≠ H' := by
          rintro rfl
          have := (List.getElem?_inj (List.getElem?_eq_some_iff.1 hH).1 (hnd.filter _)).1 (hH.trans hH'.symm)
          omega
        rw [← hHr, ← hHr', e3 H hH1, e3 H' hH1']
        exact hR.tours.holes_disjoint hR.planar hR.keyed hH1 hH1' hH2 hH2' hne
          (fun X hX => (q3 X hX).trans (q3' X hX).symm) q
      refine (hpw.filter _).imp_of_mem ?_
      intro y y' hy hy' hyy
      have a := (List.mem_filter.1 hy).2
      have b := (List.mem_filter.1 hy').2
      simp only [decide_eq_true_eq] at a b
      exact hyy (a.trans b.symm)
  obtain ⟨w1, w2, -⟩ := h.shapes_oriented cw hc p3
  have hone := fun sh (hsh : sh ∈ attach (e.shapes.map fun c => [c]) (e.holes.zip parents)) q => proper_wind (hproper sh hsh) (w2 sh hsh) q
  refine ⟨_, p3, hproper, hone, ?_⟩
  rw [List.pairwise_iff_getElem]
  intro i j hi hj hij q
  have hsum := w1 q
  have hflat : polysWind (attach (e.shapes.map fun c => [c]) (e.holes.zip parents)).flatten q =
      ((attach (e.shapes.map fun c => [c]) (e.holes.zip parents)).map fun sh => polysWind sh q).sum := by
    generalize attach (e.shapes.map fun c => [c]) (e.holes.zip parents) = L
    unfold polysWind
    induction L with
    | nil => rfl
    | cons x L ih => rw [List.flatten_cons, List.map_append, List.sum_append, ih, List.map_cons, List.sum_cons]
  rw [hflat] at hsum
  have ht : outerTurn cw ≠ 0 := by unfold outerTurn; cases cw <;> simp
  have := at_most_one ht ((attach (e.shapes.map fun c => [c]) (e.holes.zip parents)).map fun sh => polysWind sh q)
    (by
      intro v hv
      obtain ⟨sh, hsh, rfl⟩ := List.mem_map.1 hv
      exact hone sh hsh q)
    (by
      rw [hsum]
      split
      · right; simp
      · left; simp)
  rw [List.pairwise_map, List.pairwise_iff_getElem] at this
  exact this i j hi hj hij

/-- Every hole found is returned as a hole of some shape. -/
theorem RunOk.hole_returned (cw : Bool) {x : Externals} (hc : CleanOk x.clean) {e : Extracted}
    (he : extractContours g r cw x.clean 0 vis = some e) {shapes : List (List (List Pt))}
    (hs : IOverlay.extract x g r cw 0 vis = some shapes) {c : List Pt} (hcm : c ∈ e.holes) : ∃ sh ∈ shapes, c ∈ sh.tail := by
  obtain ⟨fs, f1, f2, f3, -⟩ := h.oriented cw hc he
  have hne : e.shapes ≠ [] := by
    intro hn
    rcases fs with _ | ⟨f, fs⟩
    · rw [f2] at hcm; simp at hcm
    · have := f3 f rfl
      rw [f1, List.filter_cons] at hn
      simp [this] at hn
  unfold IOverlay.extract at hs
  rw [he, Option.bind_some] at hs
  dsimp only at hs
  obtain ⟨-, parents, p1, p2, p3⟩ := C25_join_sorted _ _ _ _ _ _ _ (by simpa using hne) hs
  obtain ⟨i, hi⟩ := List.getElem?_of_mem hcm
  have hil := (List.getElem?_eq_some_iff.1 hi).1
  have hp : parents[i]? = some (parents[i]'(by omega)) := List.getElem?_eq_getElem (by omega)
  generalize parents[i]'(by omega) = p at hp
  have hpl : p < (e.shapes.map fun c => [c]).length := p2 p (List.mem_of_getElem? hp)
  refine ⟨_, by rw [p3]; exact List.mem_mapIdx.2 ⟨p, hpl, rfl⟩, ?_⟩
  rw [List.getElem_map]
  change c ∈ List.map _ (List.filter _ _)
  refine List.mem_map.2 ⟨(c, p), List.mem_filter.2 ⟨?_, by simp⟩, rfl⟩
  exact List.mem_of_getElem? (List.getElem?_zip_eq_some.2 ⟨hi, hp⟩)

theorem RunOk.proper (cw : Bool) {x : Externals} (hc : CleanOk x.clean) (hx : BindAssumed x) {shapes : List (List (List Pt))}
    (hs : IOverlay.extract x g r cw 0 vis = some shapes)
    (hl : cw = false ∨ ∀ sh ∈ shapes, ∀ c ∈ sh.tail, LeftmostOnce c) :
    (∀ sh ∈ shapes, ProperShape sh) ∧
      (∀ sh ∈ shapes, ∀ q, polysWind sh q = 0 ∨ polysWind sh q = outerTurn cw) ∧
      shapes.Pairwise fun sh sh' => ∀ q, polysWind sh q = 0 ∨ polysWind sh' q = 0 := by
  have hs' := hs
  unfold IOverlay.extract at hs'
  obtain ⟨e, he, -⟩ := Option.bind_eq_some_iff.1 hs'
  obtain ⟨shapes', q1, q2⟩ := h.shapes_proper cw hc hx he (by
    rcases hl with hl | hl
    · exact Or.inl hl
    · refine Or.inr fun c hcm => ?_
      obtain ⟨sh, h1, h2⟩ := h.hole_returned cw hc he hs hcm
      exact hl sh h1 c h2)
  rw [hs] at q1
  obtain rfl := Option.some.inj q1
  exact q2

end

/-- C43 (one-shot overlay, no area limit, simplification off): in every returned shape the holes lie inside
the outer contour and do not overlap; each shape covers a point at most once; different shapes cover no point
in common. Proved for counterclockwise output, and for clockwise output if every returned hole passes through
its leftmost vertex once; refuted otherwise (`C43_clockwise_refuted`, `C43_simplified_refuted`). -/
theorem C43_overlay_partial (k : Config) (x : Externals) (ha : Assumed k x) (hx : BindAssumed x) (r : OverlayRule)
    (rule : FillRule) (cw : Bool) (subj clip : List (List Pt)) (hf : FragFor k subj clip) (shapes : List (List (List Pt)))
    (h : overlayCustom k x r rule cw 0 (overlaySegments subj clip) = some shapes)
    (hl : cw = false ∨ ∀ sh ∈ shapes, ∀ c ∈ sh.tail, LeftmostOnce c) :
    (∀ sh ∈ shapes, ProperShape sh) ∧
    (∀ sh ∈ shapes, ∀ q, polysWind sh q = 0 ∨ polysWind sh q = outerTurn cw) ∧
    shapes.Pairwise fun sh sh' => ∀ q, polysWind sh q = 0 ∨ polysWind sh' q = 0 := by
  obtain ⟨segs, g, V, vis, h1, h2, h3⟩ := extract_oneShot ha hf h
  exact h2.proper cw ha.clean hx h3 hl

/-- C43 (prebuilt graph, any rule extracted from it). -/
theorem C43_graph_partial (k : Config) (x : Externals) (ha : Assumed k x) (hx : BindAssumed x) (r : OverlayRule)
    (rule : FillRule) (cw : Bool) (subj clip : List (List Pt)) (hf : FragFor k subj clip) (g : Graph) (shapes : List (List (List Pt)))
    (hg : intoGraph k x rule (overlaySegments subj clip) = some g)
    (h : extractShapesCustom x g r cw 0 = some shapes)
    (hl : cw = false ∨ ∀ sh ∈ shapes, ∀ c ∈ sh.tail, LeftmostOnce c) :
    (∀ sh ∈ shapes, ProperShape sh) ∧
    (∀ sh ∈ shapes, ∀ q, polysWind sh q = 0 ∨ polysWind sh q = outerTurn cw) ∧
    shapes.Pairwise fun sh sh' => ∀ q, polysWind sh q = 0 ∨ polysWind sh' q = 0 := by
  obtain ⟨segs, V, vis, h1, h2, h3⟩ := extract_graph ha hf hg h
  exact h2.proper cw ha.clean hx h3 hl

/-- C43 (no failure): attaching the holes of a counterclockwise extraction never fails. -/
theorem C43_succeeds_partial (k : Config) (x : Externals) (ha : Assumed k x) (hx : BindAssumed x) (r : OverlayRule)
    (rule : FillRule) (subj clip : List (List Pt)) (hf : FragFor k subj clip) (links : List Link)
    (hb : buildBoolean (isIncluded r) rule k.st k.sr k.tree k.scan k.fuel (overlaySegments subj clip) = some links) :
    ∃ shapes, overlayCustom k x r rule false 0 (overlaySegments subj clip) = some shapes := by
  obtain ⟨segs, g, V, -, q2, q3, q4⟩ := runOk_oneShot ha.tree ha.scan ha.sortE hf hb
  obtain ⟨ws, e, h, -⟩ := q4.extract false x.clean 0
  obtain ⟨shapes, s1, -⟩ := q4.shapes_proper false ha.clean hx h (Or.inl rfl)
  refine ⟨shapes, ?_⟩
  unfold overlayCustom
  rw [hb, Option.bind_some, q2, Option.bind_some]
  exact s1

/-! ### witnesses and counterexamples -/

/-- A scan list of the binder without any index. -/
def listBind : BindOracle := ⟨fun es t key =>
  match es.filter fun e => decide (t < e.b.x) && decide (vCmp e key = .lt) with
  | [] => none
  | e :: rest => some (rest.foldl (fun b e' => if vCmp e' b = .lt then b else e') e).c⟩

theorem listBind_ok : listBind.Ok := by
  refine ⟨?_, ?_⟩
  · intro es t key h
    have : (es.filter fun e => decide (t < e.b.x) && decide (vCmp e key = .lt)) = [] := by
      rw [List.filter_eq_nil_iff]
      intro e he
      by_cases ht : t < e.b.x
      · simp [h e he ht]
      · simp [ht]
    simp only [listBind, this]
  · intro es t key e he ht hv hall
    have hm : e ∈ es.filter fun e => decide (t < e.b.x) && decide (vCmp e key = .lt) := by
      rw [List.mem_filter]; refine ⟨he, ?_⟩; simp [ht, hv]
    simp only [listBind]
    generalize hl : (es.filter fun e => decide (t < e.b.x) && decide (vCmp e key = .lt)) = l at hm
    have hall' : ∀ e' ∈ l, e' = e ∨ vCmp e' e = .lt := by
      intro e' h'
      rw [← hl, List.mem_filter] at h'
      have h2 := h'.2
      rw [Bool.and_eq_true, decide_eq_true_eq, decide_eq_true_eq] at h2
      exact hall e' h'.1 h2.1 h2.2
    cases l with
    | nil => simp at hm
    | cons b l =>
      simp only
      rw [foldl_greatest e l b hm hall' (fun h => vCmp_asymm h h)]
      intro e' h' hne
      rcases hall' e' h' with h1 | h1
      · exact absurd h1 hne
      · exact vCmp_asymm h1

/-- The order of the sweep is a total preorder. -/
theorem before_cotrans {x y z : IdSeg} (hx : x.a < x.b) (hy : y.a < y.b) (hz : z.a < z.b) (h : Before z x) :
    Before z y ∨ Before y x := by
  rcases Pt.lt_tri y.a x.a with k | k | k
  · exact Or.inr (Or.inl k)
  · rcases h with h | ⟨h1, h2⟩
    · exact Or.inl (Or.inl (by rw [k]; exact h))
    · by_contra hc
      push Not at hc
      obtain ⟨c1, c2⟩ := hc
      have c1' : area2 y.a y.b z.b ≤ 0 := by
        by_contra hn; exact c1 (Or.inr ⟨h1.trans k.symm, by omega⟩)
      have c2' : area2 x.a x.b y.b ≤ 0 := by
        by_contra hn; exact c2 (Or.inr ⟨k, by omega⟩)
      rw [k] at c1' hy
      rw [h1] at hz
      generalize x.a = p at *
      -- the three directions
      rw [Pt.lt_def] at hx hy hz
      unfold area2 at *
      obtain ⟨ux, hux⟩ : ∃ u, u = z.b.x - p.x := ⟨_, rfl⟩
      obtain ⟨uy, huy⟩ : ∃ u, u = z.b.y - p.y := ⟨_, rfl⟩
      obtain ⟨vx, hvx⟩ : ∃ u, u = y.b.x - p.x := ⟨_, rfl⟩
      obtain ⟨vy, hvy⟩ : ∃ u, u = y.b.y - p.y := ⟨_, rfl⟩
      obtain ⟨wx, hwx⟩ : ∃ u, u = x.b.x - p.x := ⟨_, rfl⟩
      obtain ⟨wy, hwy⟩ : ∃ u, u = x.b.y - p.y := ⟨_, rfl⟩
      have a1 : 0 < ux * wy - uy * wx := by rw [hux, huy, hwx, hwy]; linarith
      have a2 : ux * vy - uy * vx ≤ 0 := by rw [hux, huy, hvx, hvy]; linarith
      have a3 : vx * wy - vy * wx ≤ 0 := by rw [hvx, hvy, hwx, hwy]; linarith
      have lu : 0 < ux ∨ (ux = 0 ∧ 0 < uy) := by omega
      have lv : 0 < vx ∨ (vx = 0 ∧ 0 < vy) := by omega
      have lw : 0 < wx ∨ (wx = 0 ∧ 0 < wy) := by omega
      have id1 : (ux * wy - uy * wx) * vx = (ux * vy - uy * vx) * wx + (vx * wy - vy * wx) * ux := by ring
      have id2 : (ux * wy - uy * wx) * vy = (ux * vy - uy * vx) * wy + (vx * wy - vy * wx) * uy := by ring
      have u0 : 0 ≤ ux := by omega
      have w0 : 0 ≤ wx := by omega
      have r1 : (ux * wy - uy * wx) * vx ≤ 0 := by
        rw [id1]
        have := mul_nonneg (neg_nonneg.2 a2) w0
        have := mul_nonneg (neg_nonneg.2 a3) u0
        linarith
      rcases lv with lv | ⟨lv, lv'⟩
      · have := mul_pos a1 lv; omega
      · rw [lv] at a2 a3
        have : ux * vy ≤ 0 := by linarith
        have hu : ux = 0 := by
          rcases lu with lu | lu
          · have := mul_pos lu lv'; omega
          · exact lu.1
        have : 0 < uy := by omega
        rw [hu] at a1
        have := mul_nonneg (le_of_lt this) w0
        omega
  · rcases h with h | ⟨h1, h2⟩
    · exact Or.inl (Or.inl (Pt.lt_trans h k))
    · exact Or.inl (Or.inl (by rw [h1]; exact k))

theorem stableSort_sorts : SortsByA (stableSort cmpByAThenAngle) := by
  intro l
  refine ⟨stableSort_perm _ _, ?_⟩
  have ins : ∀ (x : IdSeg) (l : List IdSeg), (∀ y ∈ x :: l, y.a < y.b) →
      l.Pairwise (fun x y => cmpByAThenAngle x y ≠ .gt) →
      (insertBy cmpByAThenAngle x l).Pairwise fun x y => cmpByAThenAngle x y ≠ .gt := by
    intro x l
    induction l with
    | nil => intro _ _; simp [insertBy]
    | cons y r ih =>
      intro h1 h3
      obtain ⟨h4, h5⟩ := List.pairwise_cons.1 h3
      rw [insertBy]
      split
      · rename_i hc
        refine List.pairwise_cons.2 ⟨?_, ih (fun z hz => h1 z (by
          rcases List.mem_cons.1 hz with rfl | hz
          · simp
          · simp [hz])) h5⟩
        intro z hz
        rcases List.mem_cons.1 ((insertBy_perm _ _ _).mem_iff.1 hz) with rfl | hz
        · intro hgt
          have hx := h1 z (by simp)
          have hy := h1 y (by simp)
          exact before_irrefl _ (before_trans hx hy hx (cmp_gt_iff.1 hgt) (cmp_gt_iff.1 hc))
        · exact h4 z hz
      · rename_i hc
        refine List.pairwise_cons.2 ⟨?_, h3⟩
        intro z hz
        rcases List.mem_cons.1 hz with rfl | hz
        · exact hc
        · intro hgt
          rcases before_cotrans (h1 x (by simp)) (h1 y (by simp)) (h1 z (by simp [hz])) (cmp_gt_iff.1 hgt) with k | k
          · exact h4 z hz (cmp_gt_iff.2 k)
          · exact hc (cmp_gt_iff.2 k)
  induction l with
  | nil => intros; exact List.Pairwise.nil
  | cons x l ih =>
    intro h1
    refine ins x _ ?_ (ih fun y hy => h1 y (by simp [hy]))
    intro y hy
    rcases List.mem_cons.1 hy with rfl | hy
    · exact h1 _ (by simp)
    · exact h1 y (by simp [(stableSort_perm _ _).mem_iff.1 hy])

/-- External parts of the examples: simplification off. -/
def exRaw : Externals := ⟨insertionEndSort, stableSort cmpByAThenAngle, listBind, fun c => (c, false)⟩

theorem exRaw_assumed : Assumed exConfig exRaw ∧ BindAssumed exRaw :=
  ⟨⟨bruteTree_ok, listScanOracle_ok, insertionEndSort_ok, fun _ _ => rfl⟩, listBind_ok, stableSort_sorts, fun _ _ => rfl⟩

def sq (x0 y0 x1 y1 : Int) : List Pt := [⟨x0, y0⟩, ⟨x1, y0⟩, ⟨x1, y1⟩, ⟨x0, y1⟩]

/-- Two shapes, three holes; one hole is found below another one. -/
example : overlayCustom exConfig exRaw .subject .evenOdd false 0
    (overlaySegments [sq 0 0 40 40, sq 5 5 30 15, sq 10 8 20 12, sq 10 20 20 30] []) =
    some [[[⟨0, 40⟩, ⟨0, 0⟩, ⟨40, 0⟩, ⟨40, 40⟩], [⟨5, 5⟩, ⟨5, 15⟩, ⟨30, 15⟩, ⟨30, 5⟩], [⟨10, 20⟩, ⟨10, 30⟩, ⟨20, 30⟩, ⟨20, 20⟩]],
      [[⟨10, 12⟩, ⟨10, 8⟩, ⟨20, 8⟩, ⟨20, 12⟩]]] := by
  decide +kernel

/-- The same clockwise, -/
def exClockwise : List (List (List Pt)) :=
  [[[⟨0, 0⟩, ⟨0, 40⟩, ⟨40, 40⟩, ⟨40, 0⟩], [⟨5, 15⟩, ⟨5, 5⟩, ⟨30, 5⟩, ⟨30, 15⟩], [⟨10, 30⟩, ⟨10, 20⟩, ⟨20, 20⟩, ⟨20, 30⟩]],
    [[⟨10, 8⟩, ⟨10, 12⟩, ⟨20, 12⟩, ⟨20, 8⟩]]]

example : overlayCustom exConfig exRaw .subject .evenOdd true 0
    (overlaySegments [sq 0 0 40 40, sq 5 5 30 15, sq 10 8 20 12, sq 10 20 20 30] []) = some exClockwise := by
  decide +kernel

/-- where the holes pass through their leftmost vertex once. -/
example : ∀ sh ∈ exClockwise, ∀ c ∈ sh.tail, LeftmostOnce c := by
  unfold LeftmostOnce exClockwise
  decide +kernel

/-- The hypotheses of `C26_bind`: a floor of two edges, the second one of a hole, and two holes; the first edge
below the second hole belongs to the first hole. -/
example : ∃ parents, bindSolve listBind 1 [⟨⟨2, 5⟩, ⟨4, 5⟩, ⟨true, 0⟩⟩, ⟨⟨3, 8⟩, ⟨4, 8⟩, ⟨true, 1⟩⟩]
    [⟨⟨0, 0⟩, ⟨10, 0⟩, ⟨false, 0⟩⟩, ⟨⟨2, 6⟩, ⟨4, 6⟩, ⟨true, 0⟩⟩] = some parents ∧ parents = [0, 0] := by
  have hb : BindInput [⟨⟨0, 0⟩, ⟨10, 0⟩, ⟨false, 0⟩⟩, ⟨⟨2, 6⟩, ⟨4, 6⟩, ⟨true, 0⟩⟩]
      [⟨⟨2, 5⟩, ⟨4, 5⟩, ⟨true, 0⟩⟩, ⟨⟨3, 8⟩, ⟨4, 8⟩, ⟨true, 1⟩⟩] := by
    refine ⟨by decide, ?_, by decide⟩
    have flat : ∀ (a b c d : Pt), a.y = b.y → c.y = d.y → a.y ≠ c.y → MeetAtEnds a b c d := by
      intro a b c d h1 h2 h3 p hp hp'
      obtain ⟨t, -, -, -, e1⟩ := hp
      obtain ⟨t', -, -, -, e2⟩ := hp'
      exfalso
      simp_all
    intro f hf g hg hne
    simp only [List.cons_append, List.nil_append, List.mem_cons, List.not_mem_nil, or_false] at hf hg
    rcases hf with rfl | rfl | rfl | rfl <;> rcases hg with rfl | rfl | rfl | rfl <;>
      first | exact absurd ⟨rfl, rfl⟩ hne | exact flat _ _ _ _ rfl rfl (by decide)
  have f0 : FirstBelow (· ∈ ([⟨⟨0, 0⟩, ⟨10, 0⟩, ⟨false, 0⟩⟩, ⟨⟨2, 6⟩, ⟨4, 6⟩, ⟨true, 0⟩⟩] : List IdSeg))
      ⟨⟨2, 5⟩, ⟨4, 5⟩, ⟨true, 0⟩⟩ ⟨⟨0, 0⟩, ⟨10, 0⟩, ⟨false, 0⟩⟩ := by
    refine ⟨by simp, by unfold Seg.spans; decide, by unfold ht mid; norm_num, ?_⟩
    intro f hf _ hl
    simp only [List.mem_cons, List.not_mem_nil, or_false] at hf
    rcases hf with rfl | rfl
    · exact Or.inl rfl
    · unfold ht mid at hl; norm_num at hl
  have f1 : FirstBelow (· ∈ ([⟨⟨0, 0⟩, ⟨10, 0⟩, ⟨false, 0⟩⟩, ⟨⟨2, 6⟩, ⟨4, 6⟩, ⟨true, 0⟩⟩] : List IdSeg))
      ⟨⟨3, 8⟩, ⟨4, 8⟩, ⟨true, 1⟩⟩ ⟨⟨2, 6⟩, ⟨4, 6⟩, ⟨true, 0⟩⟩ := by
    refine ⟨by simp, by unfold Seg.spans; decide, by unfold ht mid; norm_num, ?_⟩
    intro f hf _ hl
    simp only [List.mem_cons, List.not_mem_nil, or_false] at hf
    rcases hf with rfl | rfl
    · right; unfold ht mid; norm_num
    · exact Or.inl rfl
  obtain ⟨ps, p1, p2, p3⟩ := C26_bind listBind listBind_ok 1 (by decide) _ _ _ hb (List.Perm.refl _) (by decide) (by decide)
    (by decide) (by
      intro l s r he
      rcases l with _ | ⟨l0, _ | ⟨l1, l⟩⟩
      · obtain ⟨rfl, -⟩ := List.cons.inj he
        exact ⟨_, f0, by decide⟩
      · obtain ⟨rfl, he2⟩ := List.cons.inj he
        obtain ⟨hs, -⟩ := List.cons.inj he2
        rw [← hs]
        exact ⟨_, f1, by decide⟩
      · simp at he)
  have a0 := p3 _ (by simp) _ f0
  have a1 := p3 _ (by simp) _ f1
  refine ⟨ps, p1, ?_⟩
  rcases ps with _ | ⟨u, _ | ⟨v, _ | ⟨w, ps⟩⟩⟩ <;> simp at p2 a0 a1 ⊢
  exact ⟨a0, a1.trans a0⟩

/-! ### counterexamples -/

/-- C43 fails for clockwise output: a hole passing twice through its leftmost vertex (a square hole with a
triangular notch touching its left corner) becomes a hole of an unrelated triangle to the left of it. -/
theorem C43_clockwise_refuted : ∃ (subj : List (List Pt)) (shapes : List (List (List Pt))),
    (Assumed exConfig exRaw ∧ BindAssumed exRaw) ∧
    overlayCustom exConfig exRaw .subject .evenOdd true 0 (overlaySegments subj []) = some shapes ∧
    ∃ sh ∈ shapes, ∃ outer holes, sh = outer :: holes ∧
      ∃ c ∈ holes, ∃ q, polyWind c q ≠ 0 ∧ polyWind outer q = 0 := by
  refine ⟨[[⟨-10, 0⟩, ⟨-5, 0⟩, ⟨-5, 5⟩], sq 0 0 40 40, [⟨10, 20⟩, ⟨20, 10⟩, ⟨30, 20⟩, ⟨20, 30⟩],
      [⟨10, 20⟩, ⟨15, 18⟩, ⟨15, 22⟩]],
    [[[⟨-10, 0⟩, ⟨-5, 5⟩, ⟨-5, 0⟩], [⟨20, 30⟩, ⟨10, 20⟩, ⟨15, 22⟩, ⟨15, 18⟩, ⟨10, 20⟩, ⟨20, 10⟩, ⟨30, 20⟩]],
      [[⟨0, 0⟩, ⟨0, 40⟩, ⟨40, 40⟩, ⟨40, 0⟩]]],
    exRaw_assumed, by decide +kernel, _, List.mem_cons_self, _, _, rfl, _, List.mem_singleton.2 rfl, ⟨25, 20⟩, ?_, ?_⟩ <;>
  · simp [polyWind, polyEdges, edgeWind, aboveLine]
    norm_num

/-- Removes every point lying on the line through its neighbours; the first and last points stay. -/
def stripFrom (p : Pt) : List Pt → List Pt
  | [] => []
  | [x] => [x]
  | x :: y :: r => if area2 p x y = 0 then stripFrom p (y :: r) else x :: stripFrom x (y :: r)

def stripClean : List Pt → List Pt × Bool
  | [] => ([], false)
  | p :: r => (p :: stripFrom p r, decide ((stripFrom p r).length < r.length))

theorem stripFrom_wind (q : QPt) : ∀ (r : List Pt) (p z : Pt),
    ((List.zip (p :: stripFrom p r) (stripFrom p r ++ [z])).map fun e => edgeWind e.1 e.2 q).sum =
      ((List.zip (p :: r) (r ++ [z])).map fun e => edgeWind e.1 e.2 q).sum := by
  intro r
  induction r with
  | nil => intros; rfl
  | cons x r ih =>
    intro p z
    cases r with
    | nil => rfl
    | cons y r =>
      rw [stripFrom]
      split
      · rename_i h
        rw [ih p z]
        simp only [List.cons_append, List.zip_cons_cons, List.map_cons, List.sum_cons]
        rw [← edgeWind_add h q]; ring
      · have := ih x z
        simp only [List.cons_append, List.zip_cons_cons, List.map_cons, List.sum_cons] at this ⊢
        rw [this]

theorem stripClean_ok : CleanOk stripClean := by
  intro c q
  cases c with
  | nil => rfl
  | cons p r => exact stripFrom_wind q r p p

/-- C43 fails with simplification: a hole touching the straight upper edge of another hole from above (the
vertex where they touch is removed from that edge as collinear) becomes a hole of the island inside that other
hole. -/
theorem C43_simplified_refuted : ∃ (x : Externals) (subj : List (List Pt)) (shapes : List (List (List Pt))),
    (Assumed exConfig x ∧ x.bind.Ok ∧ SortsByA x.sortI) ∧
    overlayCustom exConfig x .subject .evenOdd false 0 (overlaySegments subj []) = some shapes ∧
    ∃ sh ∈ shapes, ∃ outer holes, sh = outer :: holes ∧
      ∃ c ∈ holes, ∃ q, polyWind c q ≠ 0 ∧ polyWind outer q = 0 := by
  refine ⟨⟨insertionEndSort, stableSort cmpByAThenAngle, listBind, stripClean⟩,
    [sq 0 0 40 40, sq 10 10 30 20, sq 12 12 28 18, [⟨15, 20⟩, ⟨25, 25⟩, ⟨16, 30⟩]],
    [[[⟨0, 40⟩, ⟨0, 0⟩, ⟨40, 0⟩, ⟨40, 40⟩], [⟨10, 10⟩, ⟨10, 20⟩, ⟨30, 20⟩, ⟨30, 10⟩]],
      [[⟨12, 18⟩, ⟨12, 12⟩, ⟨28, 12⟩, ⟨28, 18⟩], [⟨15, 20⟩, ⟨16, 30⟩, ⟨25, 25⟩]]],
    ⟨⟨bruteTree_ok, listScanOracle_ok, insertionEndSort_ok, stripClean_ok⟩, listBind_ok, stableSort_sorts⟩,
    by decide +kernel, _, List.mem_cons_of_mem _ List.mem_cons_self, _, _, rfl, _, List.mem_singleton.2 rfl, ⟨18, 25⟩, ?_, ?_⟩ <;>
  · simp [polyWind, polyEdges, edgeWind, aboveLine]
    norm_num

end IOverlay
