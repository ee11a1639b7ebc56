/-
The contours found by a slice: every filled side of an edge is used at most once. C66.
-/
import Verif.Props.SliceShapes
import Verif.Attach

namespace IOverlay

theorem polyEdges_turned (cw d : Bool) (c : List Pt) :
    (polyEdges (turned cw d c)).Perm ((polyEdges c).map fun e => turn (!cw) (turn d e)) := by
  have e1 : ((polyEdges c).map fun e => e) = polyEdges c := List.map_id _
  unfold turned turn
  cases cw <;> cases d <;> simp
  · exact polyEdges_reverse c
  · exact polyEdges_reverse c

theorem flatMap_perm {α β : Type} {f g : α → List β} : ∀ {l : List α}, (∀ x ∈ l, (f x).Perm (g x)) →
    (l.flatMap f).Perm (l.flatMap g) := by
  intro l
  induction l with
  | nil => intro _; exact List.Perm.refl _
  | cons x l ih =>
    intro h
    rw [List.flatMap_cons, List.flatMap_cons]
    exact (h x (by simp)).append (ih fun y hy => h y (by simp [hy]))

/-- The edges of the contours found are different filled sides. -/
theorem assemble_sides (order : List Pt → Bool) (cw : Bool) {rule : FillRule} {r : List (Seg CountStr)} (hp : Planar r) :
    ∀ walks : List (Bool × List Pt), (∀ w ∈ walks, FaceWalk rule r w) → ∀ outer holes,
    assembleSlice order cw 0 walks = some (outer, holes) →
      ∃ rest, ((walkSides walks).map (turn (!cw))).Perm ((outer ++ holes).flatMap polyEdges ++ rest) ∧
        ∀ e ∈ rest, (dartOf e).s ∈ r.map Seg.key → ∀ φ, Closed φ (r.map Seg.key) → φ (dartOf e).s.c = 0 := by
  intro walks
  induction walks with
  | nil =>
    intro _ outer holes h
    simp only [assembleSlice, Option.some.injEq, Prod.mk.injEq] at h
    obtain ⟨rfl, rfl⟩ := h
    exact ⟨[], List.Perm.refl _, by simp⟩
  | cons w ws ih =>
    intro h outer holes he
    have hw := h w List.mem_cons_self
    have hni : NonInterleaved w.2 := by
      have := faces_noninterleaved (planar_keys hp) (keyed_keys r) hw.chain hw.nodup hw.mem
      rwa [show (polyEdges w.2).map Prod.fst = w.2 from polyEdges_fst w.2] at this
    obtain ⟨loops, spikes, still, l1, -, l3⟩ := C31_split_loops w.2 hni
    rw [assembleSlice, l1, Option.bind_some] at he
    obtain ⟨⟨o', h'⟩, e1, e2⟩ := Option.map_eq_some_iff.1 he
    obtain ⟨rest, ihp, ihr⟩ := ih (fun w hw => h w (List.mem_cons_of_mem _ hw)) o' h' e1
    obtain ⟨c1, c2⟩ := classify_spec order cw w.1 loops
    dsimp only at e2
    rw [c1, c2, Prod.mk.injEq] at e2
    obtain ⟨rfl, rfl⟩ := e2
    -- the contours of this walk
    have hf : (loops.filter (fun c => order c != w.1) ++ loops.filter fun c => order c == w.1).Perm loops := by
      have e0 : (fun c : List Pt => order c == w.1) = fun c => !(order c != w.1) := by
        funext c; simp [bne]
      rw [e0]
      exact List.filter_append_perm _ _
    have hl : ((loops.map (turned cw w.1)).flatMap polyEdges).Perm
        ((loops.flatMap polyEdges).map fun e => turn (!cw) (turn w.1 e)) := by
      rw [List.flatMap_map, List.map_flatMap]
      exact flatMap_perm fun c _ => polyEdges_turned cw w.1 c
    have hpE := planar_keys hp
    have hthin : ∀ f, f ∈ (spikes.flatMap fun e => [(e.1, e.2), (e.2, e.1)]) ++ still.map (fun p => (p, p)) →
        (dartOf f).s ∈ r.map Seg.key → ∀ φ, Closed φ (r.map Seg.key) → φ (dartOf f).s.c = 0 := by
      intro f hf hfE φ hφ
      rcases List.mem_append.1 hf with hf | hf
      · obtain ⟨g, hg, hgf⟩ := List.mem_flatMap.1 hf
        have hboth : f ∈ polyEdges w.2 ∧ f.swap ∈ polyEdges w.2 := by
          rw [l3.mem_iff, l3.mem_iff]
          have k : ∀ x, x ∈ [(g.1, g.2), (g.2, g.1)] → x ∈ loops.flatMap polyEdges ++
              (spikes.flatMap fun e => [(e.1, e.2), (e.2, e.1)]) ++ still.map fun p => (p, p) := fun x hx =>
            List.mem_append_left _ (List.mem_append_right _ (List.mem_flatMap.2 ⟨g, hg, hx⟩))
          rcases List.mem_cons.1 hgf with rfl | hgf
          · exact ⟨k _ List.mem_cons_self, k (g.2, g.1) (by simp)⟩
          · obtain rfl := List.mem_singleton.1 hgf
            exact ⟨k _ (by simp), k (g.1, g.2) (by simp)⟩
        obtain ⟨m, hm⟩ := hw.chain.const hpE hφ
        have h1 := hm f hboth.1
        have h2 := hm f.swap hboth.2
        rw [hug_swap hpE _ _ hfE] at h2
        have h3 := hug_far w.1 φ (r.map Seg.key) (dartOf f)
        rw [h1, h2, sub_self] at h3
        unfold side flux Dart.sign at h3
        generalize φ (dartOf f).s.c = z at h3 ⊢
        revert h3
        cases w.1 <;> cases (dartOf f).fwd <;> intro h3 <;> simp at h3 <;> omega
      · obtain ⟨p, -, rfl⟩ := List.mem_map.1 hf
        exact absurd rfl (step_ne hpE hfE)
    generalize hS : (spikes.flatMap fun e => [(e.1, e.2), (e.2, e.1)]) ++ still.map (fun p => (p, p)) = S at *
    rw [List.append_assoc, hS] at l3
    refine ⟨S.map (fun e => turn (!cw) (turn w.1 e)) ++ rest, ?_, ?_⟩
    rotate_left
    · intro e he heE φ hφ
      rcases List.mem_append.1 he with he | he
      · obtain ⟨f, hf, rfl⟩ := List.mem_map.1 he
        have hsw : ∀ (d : Bool) (g : Pt × Pt), (dartOf (turn d g)).s ∈ r.map Seg.key →
            (dartOf (turn d g)).s = (dartOf g).s := by
          intro d g hg
          unfold turn at hg ⊢
          split
          · rfl
          · rename_i hd
            rw [if_neg hd] at hg
            have := step_ne hpE hg
            exact (dartOf_swap (fun h => this (by simp [h]))).1
        have e1 := hsw _ _ heE
        rw [e1] at heE ⊢
        have e2 := hsw _ _ heE
        rw [e2] at heE ⊢
        exact hthin f hf heE φ hφ
      · exact ihr e he heE φ hφ
    have ew : (walkSides (w :: ws)).map (turn (!cw)) =
        (polyEdges w.2).map (fun e => turn (!cw) (turn w.1 e)) ++ (walkSides ws).map (turn (!cw)) := by
      unfold walkSides
      rw [List.flatMap_cons, List.map_append, List.map_map]; rfl
    rw [ew]
    refine ((l3.map _).append ihp).trans ?_
    rw [List.map_append]
    have h1 := hl.symm
    have h2 : ((loops.map (turned cw w.1)).flatMap polyEdges).Perm
        (((loops.filter fun c => order c != w.1).map (turned cw w.1) ++ (loops.filter fun c => order c == w.1).map (turned cw w.1)).flatMap
          polyEdges) := by
      rw [← List.map_append]
      exact List.Perm.flatMap_right _ (hf.symm.map _)
    have h3 := h1.trans h2
    refine ((h3.append_right _).append_right _).trans ?_
    simp only [List.flatMap_append]
    generalize ((loops.filter fun c => order c != w.1).map (turned cw w.1)).flatMap polyEdges = A
    generalize ((loops.filter fun c => order c == w.1).map (turned cw w.1)).flatMap polyEdges = B
    generalize List.map (fun e => turn (!cw) (turn w.1 e)) S = D
    generalize List.flatMap polyEdges o' = A'
    generalize List.flatMap polyEdges h' = B'
    rw [List.perm_iff_count]
    intro a
    simp only [List.count_append]
    omega

theorem outerTurn_ne (cw : Bool) : outerTurn cw ≠ 0 := by cases cw <;> decide

/-- Contours along planar edges: each runs around one face on its filled side, every side of an edge is used once, the
filled sides are inside all contours taken together, and a side within them is used unless the edge separates nothing, outer contours and holes turn in opposite directions. -/
structure Cells (cw : Bool) (E : List Edge) (outer holes : List (List Pt)) : Prop where
  loop : ∀ c ∈ outer ++ holes, FaceLoop (!cw) E c
  once : ((outer ++ holes).flatMap polyEdges).Nodup
  full : ∀ c ∈ outer ++ holes, ∀ e ∈ polyEdges c,
    hug (!cw) (stepFlow ((outer ++ holes).flatMap polyEdges)) E (dartOf e) = outerTurn cw
  thin : ∀ e, (dartOf e).s ∈ E → hug (!cw) (stepFlow ((outer ++ holes).flatMap polyEdges)) E (dartOf e) = outerTurn cw →
    e ∈ (outer ++ holes).flatMap polyEdges ∨ ∀ φ, Closed φ E → φ (dartOf e).s.c = 0
  turn_outer : ∀ c ∈ outer, WindsOnce (outerTurn cw) c
  turn_holes : ∀ c ∈ holes, WindsOnce (- outerTurn cw) c

section
variable {E : List Edge} (hp : Planar E) (hk : Keyed E)
include hp

/-- A loop turned around has its faces on the other side. -/
theorem FaceLoop.reverse {d : Bool} {c : List Pt} (h : FaceLoop d E c) : FaceLoop (!d) E c.reverse := by
  have hsw : ∀ e ∈ polyEdges c.reverse, ∃ f ∈ polyEdges c, e = f.swap := by
    intro e he
    rw [(polyEdges_reverse c).mem_iff] at he
    obtain ⟨f, hf, rfl⟩ := List.mem_map.1 he
    exact ⟨f, hf, rfl⟩
  refine ⟨List.nodup_reverse.2 h.simple, by rw [List.length_reverse]; exact h.three, ?_, ?_⟩
  · intro e he
    obtain ⟨f, hf, rfl⟩ := hsw e he
    have := h.mem f hf
    rw [(dartOf_swap (step_ne hp this)).1]
    exact this
  · intro φ hφ
    obtain ⟨m, hm⟩ := h.const φ hφ
    refine ⟨m, fun e he => ?_⟩
    obtain ⟨f, hf, rfl⟩ := hsw e he
    rw [hug_swap hp _ _ (h.mem f hf), ← hm f hf]
    unfold hug far
    cases (dartOf f).fwd <;> cases d <;> rfl

theorem FaceLoop.turned {d : Bool} {c : List Pt} (h : FaceLoop d E c) (cw : Bool) : FaceLoop (!cw) E (turned cw d c) := by
  unfold IOverlay.turned
  split
  · rename_i he
    rw [he]; exact h.reverse hp
  · rename_i he
    have : d = !cw := by cases cw <;> cases d <;> simp_all
    rw [← this]; exact h

include hk

/-- Both sides of an edge at once. -/
theorem side_values {φ ψ : Pt × Pt → Int} (hφ : Closed φ E) (hψ : Closed ψ E) {s : Edge} (hs : s ∈ E) :
    (∃ q, segsWind φ E q = botW φ E s ∧ segsWind ψ E q = botW ψ E s) ∧
    ∃ q, segsWind φ E q = botW φ E s + φ s.c ∧ segsWind ψ E q = botW ψ E s + ψ s.c := by
  have hm : inSeg ⟨((s.a.x:ℚ) + s.b.x) / 2, ((s.a.y:ℚ) + s.b.y) / 2⟩ s.a s.b :=
    ⟨1/2, by norm_num, by norm_num, by simp; ring, by simp; ring⟩
  obtain ⟨ε, e0, he⟩ := hp.near hφ hs hm
  obtain ⟨δ, d0, hd⟩ := hp.near hψ hs hm
  have h1 : 0 < min ε δ / 2 := by have := lt_min e0 d0; linarith
  have h2 : min ε δ / 2 < ε := by have := lt_min e0 d0; have := min_le_left ε δ; linarith
  have h3 : min ε δ / 2 < δ := by have := lt_min e0 d0; have := min_le_right ε δ; linarith
  exact ⟨⟨_, (he _ h1 h2).1, (hd _ h1 h3).1⟩, ⟨_, (he _ h1 h2).2, (hd _ h1 h3).2⟩⟩

theorem hug_values (d : Bool) {φ ψ : Pt × Pt → Int} (hφ : Closed φ E) (hψ : Closed ψ E) {e : Pt × Pt} (he : (dartOf e).s ∈ E) :
    ∃ q, segsWind φ E q = hug d φ E (dartOf e) ∧ segsWind ψ E q = hug d ψ E (dartOf e) := by
  obtain ⟨h1, h2⟩ := side_values hp hk hφ hψ he
  unfold hug
  by_cases h : (dartOf e).fwd = d
  · simp only [if_pos h]; exact h2
  · simp only [if_neg h, add_zero]; exact h1

end

theorem polysWind_steps (l : List (List Pt)) (q : QPt) : polysWind l q = stepsWind (l.flatMap polyEdges) q := by
  unfold polysWind stepsWind
  induction l with
  | nil => rfl
  | cons c l ih => rw [List.map_cons, List.sum_cons, ih, List.flatMap_cons, List.map_append, List.sum_append]; rfl

theorem polysEdges_sum (l : List (List Pt)) (f : Pt → Int) : ((l.flatMap polyEdges).map fun e => f e.1 - f e.2).sum = 0 := by
  induction l with
  | nil => rfl
  | cons c l ih => rw [List.flatMap_cons, List.map_append, List.sum_append, ih, polyEdges_sum]; rfl

/-- The contours found by a slice. -/
theorem slice_pieces (order : List Pt → Bool) (ho : OrderOk order) (cw : Bool) (rule : FillRule) (st : Strategy)
    (sr : SnapRadius) (tree : TreeOracle CountStr) (ht : tree.Ok) (sc : ScanOracle CountStr) (hsc : sc.Ok) (fuel : Nat)
    (sortE : List End → List End) (hE : EndSort sortE) (shape paths contours : List (List Pt))
    (hf : FragOk st sr (stringSegments shape paths contours)) (r : List (Seg CountStr))
    (hr : nodedEdges st sr tree fuel (stringSegments shape paths contours) = some r)
    (hn : st = .list ∨ 2 < r.length) :
    Planar r ∧ ∃ g walks outer holes,
      stringGraph rule st sr tree sc fuel sortE (stringSegments shape paths contours) = some g ∧
      sliceWalks g = some walks ∧ assembleSlice order cw 0 walks = some (outer, holes) ∧
      SliceContours rule r cw outer holes ∧ Cells cw (r.map Seg.key) outer holes := by
  obtain ⟨hp, hb, g, walks, h1, h2, h3, h4⟩ := slice_faces rule st sr tree ht sc hsc fuel sortE hE shape paths contours hf r hr hn
  obtain ⟨g', walks', outer, holes, k1, k2, k3, k4⟩ := C58_slice_contours order ho cw rule st sr tree ht sc hsc fuel
    sortE hE shape paths contours hf r hr hn
  rw [h1] at k1
  obtain rfl := Option.some.inj k1
  rw [h2] at k2
  obtain rfl := Option.some.inj k2
  refine ⟨hp, g, walks, outer, holes, h1, h2, k3, k4, ?_⟩
  have hpE := planar_keys hp
  have hkE := keyed_keys r
  obtain ⟨outer', holes', e1, e2, e3, e4⟩ := assemble_spec order cw hp walks h3
  rw [k3] at e1
  obtain ⟨rfl, rfl⟩ := Prod.mk.inj (Option.some.inj e1)
  obtain ⟨rest, hs, hrest⟩ := assemble_sides order cw hp walks h3 outer holes k3
  have hloop : ∀ c ∈ outer ++ holes, FaceLoop (!cw) (r.map Seg.key) c := by
    intro c hc
    rcases List.mem_append.1 hc with hc | hc
    · obtain ⟨d, c0, a, -, rfl⟩ := e2 c hc
      exact a.turned hpE cw
    · obtain ⟨d, c0, a, -, rfl⟩ := e3 c hc
      exact a.turned hpE cw
  have hinj : Function.Injective (turn (!cw)) := fun a b h => by
    have := congrArg (turn (!cw)) h
    rwa [turn_turn, turn_turn] at this
  have hnd : ((walkSides walks).map (turn (!cw))).Nodup :=
    (h4.nodup_iff.2 (edgeSides_nodup hp rule)).map hinj
  have hmem : ∀ e ∈ (outer ++ holes).flatMap polyEdges, (dartOf e).s ∈ r.map Seg.key := by
    intro e he
    obtain ⟨c, hc, he⟩ := List.mem_flatMap.1 he
    exact (hloop c hc).mem e he
  have hcl : Closed (stepFlow ((outer ++ holes).flatMap polyEdges)) (r.map Seg.key) :=
    stepFlow_closed hpE hkE hmem (polysEdges_sum _)
  have hcl' : Closed (lift CountStr.subj r) (r.map Seg.key) := closed_keys hp hb
  -- filled sides
  have hside : ∀ e, (dartOf e).s ∈ r.map Seg.key → (turn (!cw) e ∈ walkSides walks ↔
      hug (!cw) (stepFlow ((outer ++ holes).flatMap polyEdges)) (r.map Seg.key) (dartOf e) = outerTurn cw) := by
    intro e heE
    have hswp : (dartOf (turn (!cw) e)).s ∈ r.map Seg.key := by
      unfold turn
      split
      · exact heE
      · rw [(dartOf_swap (step_ne hpE heE)).1]; exact heE
    have hin : hug true (lift CountStr.subj r) (r.map Seg.key) (dartOf (turn (!cw) e)) =
        hug (!cw) (lift CountStr.subj r) (r.map Seg.key) (dartOf e) := by
      unfold turn
      cases cw
      · simp
      · simp only [Bool.not_true, Bool.false_eq_true, if_false]
        rw [hug_swap hpE _ _ heE]
        unfold hug far
        cases (dartOf e).fwd <;> rfl
    obtain ⟨q, q1, q2⟩ := hug_values hpE hkE (!cw) hcl hcl' heE
    rw [h4.mem_iff, mem_edgeSides hp, hin, ← q1, stepFlow_wind hpE hkE hmem, ← polysWind_steps, k4.wind, ← segsWind_keys hp, q2]
    have := outerTurn_ne cw
    constructor
    · intro k; rw [if_pos k.2, mul_one]
    · intro k
      refine ⟨hswp, ?_⟩
      by_contra hn
      rw [if_neg hn, mul_zero] at k
      exact this k.symm
  refine ⟨hloop, ?_, ?_, ?_, k4.turn_outer, k4.turn_holes⟩
  · have := hs.nodup_iff.1 hnd
    exact (List.nodup_append.1 this).1
  · intro c hc e he
    refine (hside e ((hloop c hc).mem e he)).1 ?_
    have : e ∈ (walkSides walks).map (turn (!cw)) := by
      rw [hs.mem_iff]
      exact List.mem_append_left _ (List.mem_flatMap.2 ⟨c, hc, he⟩)
    obtain ⟨f, hf, rfl⟩ := List.mem_map.1 this
    rwa [turn_turn]
  · intro e heE hh
    have := List.mem_map_of_mem (f := turn (!cw)) ((hside e heE).2 hh)
    rw [turn_turn, hs.mem_iff] at this
    rcases List.mem_append.1 this with k | k
    · exact Or.inl k
    · exact Or.inr (hrest e k heE)

end IOverlay
