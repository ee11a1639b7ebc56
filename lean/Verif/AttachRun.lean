/-
Attaching holes at the end of a run. C26, C43.
-/
import Verif.Attach
import Verif.Props.Orient

namespace IOverlay

/-- Contract of `clean` with simplification off (`dedup_contour`, external): a contour without repeated
consecutive points is left as it is. -/
def Keeps (clean : List Pt → List Pt × Bool) : Prop :=
  ∀ c, (∀ e ∈ polyEdges c, e.1 ≠ e.2) → clean c = (c, false)

/-- The contour passes through its leftmost vertex only once. -/
def LeftmostOnce (c : List Pt) : Prop := ∀ p ∈ c, (∀ p' ∈ c, ¬ p' < p) → c.count p = 1

/-- A clockwise walk through its leftmost vertex only once: only its first edge ends there. -/
theorem TopTour.leftmost_once {E : List Edge} (hp : Planar E) {U : Edge → Prop} {T : Edge} {D : List (Dart (Pt × Pt))}
    (hT : TopTour true E U T D) (hl : LeftmostOnce (D.map Dart.start)) {d : Dart (Pt × Pt)} (hd : d ∈ D)
    (ha : d.s.a = T.a) (hf : d.fwd = false) : d.s = T := by
  obtain ⟨q, ht⟩ := hT.tour
  have hperm : (D.map Dart.finish).Perm (D.map Dart.start) := by
    have := polyEdges_snd (D.map Dart.start)
    rw [ht.polyEdges_eq, List.map_map] at this
    exact this
  have hle : ∀ p ∈ D.map Dart.start, ¬ p < T.a := by
    intro p hpm hlt
    obtain ⟨x, hx, rfl⟩ := List.mem_map.1 hpm
    obtain ⟨x1, x2⟩ := ht.mem x hx
    have hmin := hT.min _ x1 x2
    unfold Dart.start at hlt
    cases hxf : x.fwd
    · rw [hxf] at hlt
      exact hmin (Pt.lt_trans (hp.lt _ x1) hlt)
    · rw [hxf] at hlt
      exact hmin hlt
  have hhead := hT.head
  rcases D with _ | ⟨x, D⟩
  · simp at hhead
  · simp only [List.head?_cons, Option.some.injEq] at hhead
    have hx : x = ⟨T, false⟩ := hhead
    rcases List.mem_cons.1 hd with rfl | hd
    · rw [hx]
    · exfalso
      have hm : T.a ∈ (x :: D).map Dart.start := by
        rw [← hperm.mem_iff, hx]
        simp [Dart.finish]
      have := hl T.a hm hle
      rw [← hperm.count_eq, List.map_cons, hx, show (⟨T, false⟩ : Dart (Pt × Pt)).finish = T.a from rfl,
        List.count_cons_self] at this
      have h0 : 0 < (D.map Dart.finish).count T.a := by
        rw [List.count_pos_iff]
        refine List.mem_map.2 ⟨d, hd, ?_⟩
        unfold Dart.finish; rw [hf, ← ha]; rfl
      omega

section
variable {rule : FillRule} {r : OverlayRule} {segs : List (Seg CountBool)} {g : Graph} {V : List Pt}
  {vis : List Bool} (h : RunOk rule r segs g V vis)
include h

theorem trail_steps {trail : List Nat} {c : List Pt} (ht : ClosedTrail g.links trail c) : ∀ e ∈ polyEdges c, e.1 ≠ e.2 := by
  have main : ∀ (trail : List Nat) (es : List (Pt × Pt)),
      List.Forall₂ (fun i e => ∃ l, g.links[i]? = some l ∧ (e = (l.a, l.b) ∨ e = (l.b, l.a))) trail es →
      ∀ e ∈ es, e.1 ≠ e.2 := by
    intro trail es hf
    induction hf with
    | nil => simp
    | cons h1 _ ih =>
      intro e he
      rcases List.mem_cons.1 he with rfl | he
      · obtain ⟨l, hl, h2⟩ := h1
        have := h.graph.lt l (List.mem_of_getElem? hl)
        rcases h2 with rfl | rfl
        · exact Pt.ne_of_lt this
        · exact Ne.symm (Pt.ne_of_lt this)
      · exact ih e he
  exact main trail _ ht

/-- What the whole extraction returns, in terms of the contours found. -/
theorem RunOk.attached (cw : Bool) {x : Externals} (hc : CleanOk x.clean) (hk : Keeps x.clean) (hok : x.bind.Ok)
    (hs : SortsByA x.sortI) {e : Extracted} (he : extractContours g r cw x.clean 0 vis = some e)
    (hl : cw = false ∨ ∀ c ∈ e.holes, LeftmostOnce c) :
    ∃ (fs : List Found) (Φ : Bool → Pt × Pt → Int) (F : (Bool → Int) → Int) (parents : List Nat),
      RunTours rule r segs (Open g vis) cw fs Φ F ∧
      e.shapes = (outs fs).map Found.raw ∧ e.holes = (hls fs).map Found.raw ∧
      (∀ f ∈ fs, ∀ q, polyWind f.raw q = segsWind f.flow (segs.map Seg.key) q) ∧
      parents.length = (hls fs).length ∧ (∀ p ∈ parents, p < (outs fs).length) ∧
      IOverlay.extract x g r cw 0 vis = some (attach (e.shapes.map fun c => [c]) (e.holes.zip parents)) ∧
      ∀ (i : Nat) (H : Found), (hls fs)[i]? = some H → ∃ (p : Nat) (O : Found), parents[i]? = some p ∧ (outs fs)[p]? = some O ∧
        ∀ X ∈ fs, depth cw (segs.map Seg.key) X H = depth cw (segs.map Seg.key) X O := by
  obtain ⟨fs, Φ, F, hR, e1, e2, e3, e4, e5, -⟩ := h.tours cw hc he
  have hcl : ∀ f ∈ fs, x.clean f.raw = (f.raw, false) := by
    intro f hf
    obtain ⟨-, trail, ht⟩ := e3 f hf
    exact hk _ (trail_steps h ht)
  have e1' : e.shapes = (outs fs).map Found.raw := by
    rw [e1]
    exact List.map_congr_left fun f hf => by rw [hcl f (List.mem_filter.1 hf).1]
  have e2' : e.holes = (hls fs).map Found.raw := by
    rw [e2]
    exact List.map_congr_left fun f hf => by rw [hcl f (List.mem_filter.1 hf).1]
  have h3 : ∀ f ∈ fs, 3 ≤ f.darts.length := by
    intro f hf
    have := (e3 f hf).1
    rw [hcl f hf] at this
    unfold Found.raw at this
    simpa using this
  obtain ⟨a1, a2⟩ := e4 fun f hf => by rw [hcl f hf]
  have hanch : (e.anchors.map fun a => (⟨a.2.1, a.2.2, ⟨true, a.1⟩⟩ : IdSeg)) = anchorSegs cw ((hls fs).map Found.raw) 0 := by
    rw [a2, ← e2']
    unfold anchorSegs
    rw [List.map_filterMap]
    congr 1
    funext y
    cases holeSegment cw y.1 <;> rfl
  have honce : ∀ f ∈ fs, f.hole = true → ∀ d ∈ f.darts, d.s.a = f.top.a → d.fwd = (!cw) → d.s = f.top := by
    intro f hf hh d hd ha hfw
    obtain ⟨U, hT⟩ := hR.tours.topTour hR.planar hf
    rw [hh] at hT
    have hT : TopTour cw (segs.map Seg.key) U f.top f.darts := by simpa using hT
    cases cw
    · exact hT.once rfl hd ha hfw
    · refine hT.leftmost_once hR.planar ?_ hd ha hfw
      rcases hl with hl | hl
      · simp at hl
      · refine hl f.raw ?_
        rw [e2']
        exact List.mem_map_of_mem (List.mem_filter.2 ⟨hf, hh⟩)
  have hpar := hR.parent h3 honce
  refine ⟨fs, Φ, F, ?_⟩
  have fin : ∀ parents : List Nat, parents.length = (hls fs).length → (∀ p ∈ parents, p < (outs fs).length) →
      joinSortedHoles x.bind x.sortI ((outs fs).map fun f => [f.raw]) ((hls fs).map Found.raw)
        (anchorSegs cw ((hls fs).map Found.raw) 0) cw =
        some (attach ((outs fs).map fun f => [f.raw]) (((hls fs).map Found.raw).zip parents)) →
      (∀ (i : Nat) (H : Found), (hls fs)[i]? = some H → ∃ (p : Nat) (O : Found), parents[i]? = some p ∧ (outs fs)[p]? = some O ∧
        ∀ X ∈ fs, depth cw (segs.map Seg.key) X H = depth cw (segs.map Seg.key) X O) →
      ∃ parents : List Nat, RunTours rule r segs (Open g vis) cw fs Φ F ∧
        e.shapes = (outs fs).map Found.raw ∧ e.holes = (hls fs).map Found.raw ∧
        (∀ f ∈ fs, ∀ q, polyWind f.raw q = segsWind f.flow (segs.map Seg.key) q) ∧
        parents.length = (hls fs).length ∧ (∀ p ∈ parents, p < (outs fs).length) ∧
        IOverlay.extract x g r cw 0 vis = some (attach (e.shapes.map fun c => [c]) (e.holes.zip parents)) ∧
        ∀ (i : Nat) (H : Found), (hls fs)[i]? = some H → ∃ (p : Nat) (O : Found), parents[i]? = some p ∧ (outs fs)[p]? = some O ∧
          ∀ X ∈ fs, depth cw (segs.map Seg.key) X H = depth cw (segs.map Seg.key) X O := by
    intro parents p1 p1' p2 p3
    refine ⟨parents, hR, e1', e2', ?_, p1, p1', ?_, p3⟩
    · intro f hf q
      have := e5 f hf q
      rw [hcl f hf] at this
      exact this
    · unfold IOverlay.extract
      rw [he, Option.bind_some]
      dsimp only
      rw [a1, if_pos rfl, hanch, e1', e2', List.map_map]
      exact p2
  rcases ho : outs fs with _ | ⟨O, _ | ⟨O', os⟩⟩
  · -- nothing found
    have hh : hls fs = [] := by
      by_contra hn
      obtain ⟨H, hH⟩ := List.exists_mem_of_ne_nil _ hn
      obtain ⟨hH1, hH2⟩ := List.mem_filter.1 hH
      obtain ⟨O, o1, o2, -⟩ := hpar H hH1 hH2
      have : O ∈ outs fs := List.mem_filter.2 ⟨o1, by simp [o2]⟩
      rw [ho] at this
      simp at this
    rw [← ho]
    refine fin [] (by rw [hh]; rfl) (by simp) ?_ ?_
    · rw [ho, hh]; rfl
    · intro i H hi; rw [hh] at hi; simp at hi
  · -- one shape
    rw [← ho]
    refine fin (List.replicate (hls fs).length 0) (by simp) ?_ ?_ ?_
    · intro p hp
      rw [List.eq_of_mem_replicate hp, ho]; simp
    · rw [ho]
      have := attach_single [O.raw] ((hls fs).map Found.raw)
      rw [List.length_map] at this
      simp only [List.map_cons, List.map_nil]
      rw [← this]
      unfold joinSortedHoles
      cases hh : (hls fs).map Found.raw <;> simp
    · intro i H hi
      obtain ⟨hH1, hH2⟩ := List.mem_filter.1 (List.mem_of_getElem? hi)
      obtain ⟨O1, o1, o2, o3⟩ := hpar H hH1 hH2
      have : O1 ∈ outs fs := List.mem_filter.2 ⟨o1, by simp [o2]⟩
      rw [ho] at this
      obtain rfl : O1 = O := by simpa using this
      refine ⟨0, O1, ?_, by rw [ho]; rfl, o3⟩
      rw [List.getElem?_replicate, if_pos (List.getElem?_eq_some_iff.1 hi).1]
  · -- the sweep
    rw [← ho]
    have hn : outs fs ≠ [] := by rw [ho]; simp
    by_cases hh : hls fs = []
    · refine fin [] (by rw [hh]; rfl) (by simp) ?_ ?_
      · rw [hh]
        unfold joinSortedHoles
        simp [attach_nil]
      · intro i H hi; rw [hh] at hi; simp at hi
    · have hperm := addSortByAngle_perm (anchorSegs cw ((hls fs).map Found.raw) 0)
      have hbef := hR.anchors_before h3
      have hlen : (addSortByAngle (anchorSegs cw ((hls fs).map Found.raw) 0)).length = (hls fs).length := by
        rw [hperm.length_eq, ← List.length_map (as := anchorSegs cw ((hls fs).map Found.raw) 0) (f := fun s : IdSeg => s.c.index),
          hR.tours.anchors_index hR.planar h3, List.length_range]
      have hA : addSortByAngle (anchorSegs cw ((hls fs).map Found.raw) 0) ≠ [] := by
        intro hc
        rw [hc] at hlen
        exact hh (List.length_eq_zero_iff.1 hlen.symm)
      have hbind := fun (x0 x1 : Int) => hR.bind h3 honce hok hs hn (x0 := x0) (x1 := x1)
      generalize hA' : addSortByAngle (anchorSegs cw ((hls fs).map Found.raw) 0) = A at *
      obtain ⟨f0, hf0⟩ : ∃ f0, A.head? = some f0 := by
        rcases A with _ | ⟨a, A⟩
        · exact absurd rfl hA
        · exact ⟨a, rfl⟩
      obtain ⟨f1, hf1⟩ : ∃ f1, A.getLast? = some f1 := ⟨_, List.getLast?_eq_some_getLast hA⟩
      have hx : ∀ s ∈ A, f0.a.x ≤ s.a.x ∧ s.a.x ≤ f1.a.x := by
        intro s hsA
        constructor
        · rcases A with _ | ⟨a, A⟩
          · simp at hsA
          · obtain rfl : a = f0 := by simpa using hf0
            rcases List.mem_cons.1 hsA with rfl | hsA
            · exact le_refl _
            · rcases (List.pairwise_cons.1 hbef).1 s hsA with k | k
              · rw [Pt.lt_def] at k; omega
              · rw [k.1]
        · obtain ⟨A', e⟩ : ∃ A', A = A' ++ [f1] := by
            rcases List.eq_nil_or_concat A with rfl | ⟨A', y, rfl⟩
            · exact absurd rfl hA
            · rw [List.concat_eq_append] at *
              rw [List.getLast?_concat] at hf1
              exact ⟨A', by rw [Option.some.inj hf1]⟩
          rw [e] at hsA hbef
          rcases List.mem_append.1 hsA with hsA | hsA
          · rcases (List.pairwise_append.1 hbef).2.2 s hsA f1 (by simp) with k | k
            · rw [Pt.lt_def] at k; omega
            · rw [k.1]
          · obtain rfl : s = f1 := by simpa using hsA
            exact le_refl _
      obtain ⟨ps, p1, p2, p3⟩ := hbind f0.a.x f1.a.x fun s hsm => hx s (hperm.mem_iff.2 hsm)
      have hps : ∀ p ∈ ps, p < (outs fs).length := by
        intro p hp
        obtain ⟨i, hi⟩ := List.getElem?_of_mem hp
        have hil : i < (hls fs).length := by rw [← p2]; exact (List.getElem?_eq_some_iff.1 hi).1
        obtain ⟨p', O1, q1, q2, -⟩ := p3 i _ (List.getElem?_eq_getElem hil)
        rw [hi] at q1
        rw [Option.some.inj q1]
        exact (List.getElem?_eq_some_iff.1 q2).1
      refine fin ps p2 hps ?_ p3
      unfold joinSortedHoles
      have c1 : (((outs fs).map fun f => [f.raw]).isEmpty || ((hls fs).map Found.raw).isEmpty) = false := by
        simp [hn, hh]
      rw [c1]
      simp only [Bool.false_eq_true, if_false]
      have c2 : ∀ {y : Option (List (List (List Pt)))},
          scanJoin x.bind x.sortI ((outs fs).map fun f => [f.raw]) ((hls fs).map Found.raw) A cw = y →
          (match (outs fs).map fun f => [f.raw] with
            | [s] => some [s ++ (hls fs).map Found.raw]
            | _ => scanJoin x.bind x.sortI ((outs fs).map fun f => [f.raw]) ((hls fs).map Found.raw) A cw) = y := by
        intro y hy
        rw [ho] at hy ⊢
        exact hy
      rw [hA']
      refine c2 ?_
      unfold scanJoin
      rw [hf0, hf1, Option.bind_some, Option.bind_some, List.length_map, p1, Option.bind_some, List.length_map,
        if_pos (by omega), pushHoles_spec]
      intro y hy
      rw [List.length_map]
      exact hps _ (List.of_mem_zip hy).2

end

end IOverlay
