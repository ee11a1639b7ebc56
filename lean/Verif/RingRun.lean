/-
Attaching holes at the end of a run with simplified contours. C43.
-/
import Verif.Rings
import Verif.CanonRun

namespace IOverlay

/-- Contract of `clean` (`simplify_contour`, external): of a contour with edges meeting in common ends only, vertices are
at most dropped, the leftmost vertex is kept, and a contour reported as not modified is the same. -/
def Tidies (clean : List Pt → List Pt × Bool) : Prop :=
  ∀ c, EdgesApart [c] → (∀ p ∈ (clean c).1, p ∈ c) ∧ (∀ p ∈ c, (∀ p' ∈ c, ¬ p' < p) → p ∈ (clean c).1) ∧
    ((clean c).2 = false → (clean c).1 = c)

theorem stableSort_byA : ∀ l : List IdSeg, (stableSort (fun s t => s.a.cmp t.a) l).Pairwise fun x y => ¬ y.a < x.a := by
  have ins : ∀ (x : IdSeg) (l : List IdSeg), l.Pairwise (fun x y => ¬ y.a < x.a) →
      (insertBy (fun s t => s.a.cmp t.a) x l).Pairwise fun x y => ¬ y.a < x.a := by
    intro x l
    induction l with
    | nil => intro _; simp [insertBy]
    | cons y r ih =>
      intro h
      obtain ⟨h1, h2⟩ := List.pairwise_cons.1 h
      rw [insertBy]
      split
      · rename_i hc
        refine List.pairwise_cons.2 ⟨?_, ih h2⟩
        intro z hz
        rcases List.mem_cons.1 ((insertBy_perm _ _ _).mem_iff.1 hz) with rfl | hz
        · unfold Pt.cmp at hc
          intro hlt
          rw [if_pos hlt] at hc
          simp at hc
        · exact h1 z hz
      · rename_i hc
        have hxy : ¬ y.a < x.a := by
          intro hlt
          apply hc
          unfold Pt.cmp
          rw [if_neg (Pt.lt_asymm hlt), if_neg (Ne.symm (Pt.ne_of_lt hlt))]
        refine List.pairwise_cons.2 ⟨?_, h⟩
        intro z hz hlt
        rcases List.mem_cons.1 hz with rfl | hz
        · exact hxy hlt
        · rcases Pt.lt_tri x.a y.a with c | c | c
          · exact h1 z hz (Pt.lt_trans hlt c)
          · rw [c] at hlt; exact h1 z hz hlt
          · exact hxy c
  intro l
  induction l with
  | nil => exact List.Pairwise.nil
  | cons x l ih => exact ins x _ ih

/-- Registration of contours one after the other: the anchor of every hole is its lower edge at the leftmost vertex. -/
theorem pushAll_anchors {cw : Bool} {clean : List Pt → List Pt × Bool} : ∀ (fs : List Found) (e e' : Extracted),
    (∀ f ∈ fs, f.hole = true → (clean f.raw).2 = false → holeSegment cw (clean f.raw).1 = leftBottomSegment (clean f.raw).1) →
    (∀ f ∈ fs, (validate clean 0 f.raw).1 = true) →
    (e.anchors.map fun a => (⟨a.2.1, a.2.2, ⟨true, a.1⟩⟩ : IdSeg)) = lowEdges e.holes 0 →
    pushAll cw clean 0 e fs = some e' →
    (e'.anchors.map fun a => (⟨a.2.1, a.2.2, ⟨true, a.1⟩⟩ : IdSeg)) = lowEdges e'.holes 0 := by
  intro fs
  induction fs with
  | nil =>
    intro e e' _ _ h he
    obtain rfl := Option.some.inj he
    exact h
  | cons f fs ih =>
    intro e e' hf hv h he
    unfold pushAll at he
    rw [List.foldlM_cons] at he
    obtain ⟨e1, h1, h2⟩ := Option.bind_eq_some_iff.1 he
    refine ih e1 e' (fun f hf' => hf f (by simp [hf'])) (fun f hf' => hv f (by simp [hf'])) ?_ h2
    rw [if_pos (hv f (by simp))] at h1
    unfold Extracted.push at h1
    have hlow : ∀ {c : List Pt} {v : Pt × Pt}, leftBottomSegment c = some v →
        lowEdges (e.holes ++ [c]) 0 = lowEdges e.holes 0 ++ [⟨v.1, v.2, ⟨true, e.holes.length⟩⟩] := by
      intro c v hcv
      unfold lowEdges
      rw [List.zipIdx_append, List.filterMap_append]
      simp [hcv]
    split at h1
    · rename_i hh
      obtain ⟨v, hvs, h1⟩ := Option.bind_eq_some_iff.1 h1
      obtain ⟨m, hm, h1⟩ := Option.bind_eq_some_iff.1 h1
      split at h1
      · obtain rfl := Option.some.inj h1
        simp only [List.map_append, List.map_cons, List.map_nil]
        rw [h, hlow hm]
      · rename_i hn
        obtain rfl := Option.some.inj h1
        have hvm : v = m := by
          by_contra hne
          have hmod : (clean f.raw).2 = false := by
            by_contra hmod
            apply hn
            have : (clean f.raw).2 = true := by simpa using hmod
            rw [this]
            simp only [Bool.true_and, bne_iff_ne, ne_eq]
            exact fun k => hne k.symm
          have := hf f (by simp) hh hmod
          rw [hvs, hm] at this
          exact hne (Option.some.inj this)
        subst hvm
        simp only [List.map_append, List.map_cons, List.map_nil]
        rw [h, hlow hm]
    · obtain rfl := Option.some.inj h1
      exact h

theorem dart_keyed {d : Dart (Pt × Pt)} (hc : d.s.c = (d.s.a, d.s.b)) (hlt : d.s.a < d.s.b) :
    dartOf (d.start, d.finish) = d := by
  obtain ⟨⟨a, b, c⟩, f⟩ := d
  simp only at hc hlt
  subst hc
  cases f
  · unfold dartOf Dart.start Dart.finish
    simp [Pt.lt_asymm hlt]
  · unfold dartOf Dart.start Dart.finish
    simp [hlt]

section
variable {E : List Edge} (hp : Planar E) (hk : Keyed E) {cw : Bool} {U : Edge → Prop} {T : Edge}
  {D : List (Dart (Pt × Pt))} (hT : TopTour cw E U T D)
include hp hk hT

theorem TopTour.apart : EdgesApart [D.map Dart.start] := by
  obtain ⟨q, ht⟩ := hT.tour
  unfold EdgesApart
  rw [List.flatMap_singleton, ht.polyEdges_eq]
  have hd : ∀ d ∈ D, dartOf (d.start, d.finish) = d := fun d hd =>
    dart_keyed (hk _ (ht.mem d hd).1) (hp.lt _ (ht.mem d hd).1)
  constructor
  · intro e he
    obtain ⟨d, hdm, rfl⟩ := List.mem_map.1 he
    exact step_ne hp (e := (d.start, d.finish)) (by rw [hd d hdm]; exact (ht.mem d hdm).1)
  · rw [List.pairwise_map]
    have hnd := ht.nodup
    rw [List.Nodup, List.pairwise_map] at hnd
    refine List.Pairwise.imp_of_mem ?_ hnd
    intro d d' hm hm' hne
    have e1 := dartOf_cases (d.start, d.finish)
    have e2 := dartOf_cases (d'.start, d'.finish)
    rw [hd d hm] at e1
    rw [hd d' hm'] at e2
    have hmeet := hp.meet (ht.mem d hm).1 (ht.mem d' hm').1 hne
    refine ⟨?_, ?_, ?_⟩
    · intro p hp1 hp2
      have k1 : onSeg p d.s.a d.s.b ∧ ((p = d.s.a.q ∨ p = d.s.b.q) ↔ (p = d.start.q ∨ p = d.finish.q)) := by
        rcases e1 with e1 | e1
        · have a := congrArg Prod.fst e1
          have b := congrArg Prod.snd e1
          simp only at a b
          rw [← a, ← b]
          exact ⟨hp1, Iff.rfl⟩
        · have a := congrArg Prod.fst e1
          have b := congrArg Prod.snd e1
          simp only at a b
          rw [← a, ← b]
          exact ⟨onSeg_symm hp1, or_comm⟩
      have k2 : onSeg p d'.s.a d'.s.b ∧ ((p = d'.s.a.q ∨ p = d'.s.b.q) ↔ (p = d'.start.q ∨ p = d'.finish.q)) := by
        rcases e2 with e1 | e1
        · have a := congrArg Prod.fst e1
          have b := congrArg Prod.snd e1
          simp only at a b
          rw [← a, ← b]
          exact ⟨hp2, Iff.rfl⟩
        · have a := congrArg Prod.fst e1
          have b := congrArg Prod.snd e1
          simp only at a b
          rw [← a, ← b]
          exact ⟨onSeg_symm hp2, or_comm⟩
      have := hmeet p k1.1 k2.1
      exact ⟨k1.2.1 this.1, k2.2.1 this.2⟩
    · intro k
      apply hne
      have := congrArg dartOf k
      rw [hd d hm, hd d' hm'] at this
      rw [this]
    · intro k
      apply hne
      have := congrArg dartOf k
      rw [hd d hm] at this
      have hs := (dartOf_swap (e := (d'.start, d'.finish)) (step_ne hp (by rw [hd d' hm']; exact (ht.mem d' hm').1))).1
      rw [hd d' hm', ← this] at hs
      exact hs

omit hk in
theorem TopTour.leftmost : T.a ∈ D.map Dart.start ∧ ∀ p ∈ D.map Dart.start, ¬ p < T.a := by
  obtain ⟨q, ht⟩ := hT.tour
  constructor
  · have hm := hT.head_mem
    have hm2 : T.a ∈ D.map Dart.start := by
      have hperm : (D.map Dart.finish).Perm (D.map Dart.start) := by
        have := polyEdges_snd (D.map Dart.start)
        rw [ht.polyEdges_eq, List.map_map] at this
        exact this
      cases cw
      · exact List.mem_map.2 ⟨_, hm, by simp [Dart.start]⟩
      · rw [← hperm.mem_iff]
        exact List.mem_map.2 ⟨_, hm, by simp [Dart.finish]⟩
    exact hm2
  · intro p hpm hlt
    obtain ⟨x, hx, rfl⟩ := List.mem_map.1 hpm
    obtain ⟨x1, x2⟩ := ht.mem x hx
    have hmin := hT.min _ x1 x2
    unfold Dart.start at hlt
    cases hxf : x.fwd
    · rw [hxf] at hlt
      exact hmin (Pt.lt_trans (hp.lt _ x1) hlt)
    · rw [hxf] at hlt
      exact hmin hlt

end

section
variable {rule : FillRule} {r : OverlayRule} {segs : List (Seg CountBool)} {g : Graph} {V : List Pt}
  {vis : List Bool} (h : RunOk rule r segs g V vis)
include h

/-- What is known of the contours found whatever `clean` does to them. -/
theorem RunOk.rings (cw : Bool) {clean : List Pt → List Pt × Bool} (hc : CleanOk clean) {e : Extracted}
    (he : extractContours g r cw clean 0 vis = some e) (hap : EdgesApart (e.shapes ++ e.holes))
    (hl : ∀ c ∈ e.holes, LeftmostOnce c) : Rings cw e.shapes e.holes := by
  obtain ⟨fs, f1, f2, -, f4, f5, f6⟩ := h.oriented cw hc he
  obtain ⟨fs', -, -, -, k1, k2, k3, -⟩ := h.tours cw hc he
  have hperm : (e.shapes ++ e.holes).Perm (fs.map fun f => (clean f.raw).1) := by
    rw [f1, f2, ← List.map_append]
    refine List.Perm.map _ ?_
    have : (fun f : Found => f.hole) = fun f : Found => !(!f.hole) := by funext f; simp
    rw [this]
    exact List.filter_append_perm _ _
  refine ⟨hap, ?_, ?_, ?_, ?_, ?_, hl⟩
  · intro c hcm
    have : 3 ≤ c.length := by
      rcases List.mem_append.1 hcm with hcm | hcm
      · rw [k1] at hcm
        obtain ⟨f, hf, rfl⟩ := List.mem_map.1 hcm
        exact (k3 f (List.mem_filter.1 hf).1).1
      · rw [k2] at hcm
        obtain ⟨f, hf, rfl⟩ := List.mem_map.1 hcm
        exact (k3 f (List.mem_filter.1 hf).1).1
    intro k
    rw [k] at this
    simp at this
  · intro c hcm
    rw [f1] at hcm
    obtain ⟨f, hf, rfl⟩ := List.mem_map.1 hcm
    obtain ⟨m1, m2⟩ := List.mem_filter.1 hf
    have := f4 f m1
    simp only [Bool.not_eq_true'] at m2
    rwa [m2] at this
  · intro c hcm
    rw [f2] at hcm
    obtain ⟨f, hf, rfl⟩ := List.mem_map.1 hcm
    obtain ⟨m1, m2⟩ := List.mem_filter.1 hf
    have := f4 f m1
    rwa [m2] at this
  · intro q
    have hs : polysWind (e.shapes ++ e.holes) q = ((fs.map fun f => (clean f.raw).1).map fun c => polyWind c q).sum :=
      (hperm.map fun c => polyWind c q).sum_eq
    rw [hs, f6 q]
    split
    · right; simp
    · left; simp
  · exact (List.Perm.pairwise_iff (fun {a b} h => h.symm) hperm).2 f5

/-- Attaching holes to simplified contours. -/
theorem RunOk.attached_simplified (cw : Bool) {x : Externals} (hc : CleanOk x.clean) (ht : Tidies x.clean) (hok : x.bind.Ok)
    (hs : SortsByA x.sortI) {e : Extracted} (he : extractContours g r cw x.clean 0 vis = some e)
    (hap : EdgesApart (e.shapes ++ e.holes)) (hl : ∀ c ∈ e.holes, LeftmostOnce c) :
    ∃ parents : List Nat, IOverlay.extract x g r cw 0 vis = some (attach (e.shapes.map fun c => [c]) (e.holes.zip parents)) ∧
      ∀ sh ∈ attach (e.shapes.map fun c => [c]) (e.holes.zip parents), ProperShape sh := by
  have hR := h.rings cw hc he hap hl
  obtain ⟨fs, Φ, F, hT, k1, k2, k3, -, -, k6⟩ := h.tours cw hc he
  have hhole : ∀ f ∈ fs, f.hole = true → (x.clean f.raw).1 ∈ e.holes := by
    intro f hf hh
    rw [k2]
    exact List.mem_map.2 ⟨f, List.mem_filter.2 ⟨hf, hh⟩, rfl⟩
  -- the anchor of a hole starts where the contour was found
  have htop : ∀ f ∈ fs, f.hole = true → ∀ u v, leftBottomSegment (x.clean f.raw).1 = some (u, v) → u = f.top.a := by
    intro f hf hh u v huv
    obtain ⟨U, hTT⟩ := hT.tours.topTour hT.planar hf
    obtain ⟨t1, t2⟩ := hTT.leftmost hT.planar
    obtain ⟨c1, c2, -⟩ := ht _ (hTT.apart hT.planar hT.keyed)
    obtain ⟨a, a1, a2, -, -, a3, -⟩ := hR.anchor (hhole f hf hh)
    rw [a2] at huv
    obtain ⟨rfl, -⟩ := Prod.mk.inj (Option.some.inj huv)
    have am := polyEdges_mem a1
    have hmem : (dartOf a).s.a ∈ (x.clean f.raw).1 := by
      rcases dartOf_cases a with k | k
      · rw [← show a.1 = (dartOf a).s.a from congrArg Prod.fst k]; exact am.1
      · rw [← show a.2 = (dartOf a).s.a from congrArg Prod.snd k]; exact am.2
    rcases Pt.lt_tri (dartOf a).s.a f.top.a with k | k | k
    · exact absurd k (t2 _ (c1 _ hmem))
    · exact k
    · exact absurd k (a3 _ (c2 _ t1 t2))
  have hanch := pushAll_anchors fs Extracted.empty e
    (by
      intro f hf hh hm
      obtain ⟨U, hTT⟩ := hT.tours.topTour hT.planar hf
      obtain ⟨-, -, c3⟩ := ht _ (hTT.apart hT.planar hT.keyed)
      have c3 : (x.clean f.raw).1 = f.raw := c3 hm
      have h3 : 3 ≤ f.darts.length := by
        have := (k3 f hf).1
        rw [c3] at this
        unfold Found.raw at this
        simpa using this
      obtain ⟨a, a1, a2, a3, -, a4, -⟩ := hR.anchor (hhole f hf hh)
      have hta := htop f hf hh _ _ a2
      rw [hh] at hTT
      have hTT : TopTour cw (segs.map Seg.key) U f.top f.darts := by simpa using hTT
      obtain ⟨s, s1, -, s2, s3, -, s4⟩ := holeSegment_anchor hT.planar hTT h3
      obtain ⟨q, htt⟩ := hTT.tour
      rw [a2, c3]
      refine s4.trans ?_
      rw [c3] at a1 a4
      have hse : (s.start, s.finish) ∈ polyEdges f.raw := by
        unfold Found.raw
        rw [htt.polyEdges_eq]
        exact List.mem_map.2 ⟨s, s1, rfl⟩
      have hsd : dartOf (s.start, s.finish) = s :=
        dart_keyed (hT.keyed _ (htt.mem s s1).1) (hT.planar.lt _ (htt.mem s s1).1)
      have hu := leftmost_unique (hl _ (hhole f hf hh)) (v := f.top.a)
        (by rw [c3]; rw [← hta]; exact a4) (e := a) (f := (s.start, s.finish)) (by rw [c3]; exact a1) (by rw [c3]; exact hse)
      have hea : a = (s.start, s.finish) := by
        have ea := edge_of_dart a
        rw [a3] at ea
        cases cw
        · refine hu.2 ?_ ?_
          · rw [ea]; exact hta
          · show s.finish = f.top.a
            unfold Dart.finish; rw [s3]; simpa using s2
        · refine hu.1 ?_ ?_
          · rw [ea]; exact hta
          · show s.start = f.top.a
            unfold Dart.start; rw [s3]; simpa using s2
      rw [hea, hsd])
    (by
      intro f hf
      unfold validate
      have := (k3 f hf).1
      simp only
      rw [if_neg (by omega)]; simp)
    rfl k6
  have hsorted : (lowEdges e.holes 0).Pairwise fun x y => ¬ y.a < x.a := by
    have hh := (hT.tours.tops_sorted hT.planar).filter fun f => f.hole
    rw [k2]
    have hmem : ∀ f ∈ fs.filter (fun f => f.hole), ∃ v, leftBottomSegment (x.clean f.raw).1 = some (f.top.a, v) := by
      intro f hf
      obtain ⟨m1, m2⟩ := List.mem_filter.1 hf
      obtain ⟨a, -, a2, -⟩ := hR.anchor (hhole f m1 m2)
      exact ⟨_, by rw [a2, htop f m1 m2 _ _ a2]⟩
    clear hanch htop hhole k2
    revert hmem hh
    generalize (fs.filter fun f => f.hole) = l
    generalize 0 = k
    have main : ∀ (l : List Found) (k : Nat), l.Pairwise (fun f f' => ¬ f'.top.a < f.top.a) →
        (∀ f ∈ l, ∃ v, leftBottomSegment (x.clean f.raw).1 = some (f.top.a, v)) →
        (lowEdges (l.map fun f => (x.clean f.raw).1) k).Pairwise (fun x y => ¬ y.a < x.a) ∧
        ∀ s ∈ lowEdges (l.map fun f => (x.clean f.raw).1) k, ∃ f ∈ l, s.a = f.top.a := by
      intro l
      induction l with
      | nil => intro k _ _; exact ⟨List.Pairwise.nil, by simp [lowEdges]⟩
      | cons f l ih =>
        intro k hpw hm
        obtain ⟨p1, p2⟩ := List.pairwise_cons.1 hpw
        obtain ⟨v, hv⟩ := hm f (by simp)
        obtain ⟨i1, i2⟩ := ih (k + 1) p2 fun f hf => hm f (by simp [hf])
        have hcons : lowEdges ((f :: l).map fun f => (x.clean f.raw).1) k =
            ⟨f.top.a, v, ⟨true, k⟩⟩ :: lowEdges (l.map fun f => (x.clean f.raw).1) (k + 1) := by
          unfold lowEdges
          rw [List.map_cons, List.zipIdx_cons, List.filterMap_cons]
          simp [hv]
        rw [hcons]
        refine ⟨List.pairwise_cons.2 ⟨?_, i1⟩, ?_⟩
        · intro s hs
          obtain ⟨f', hf', e'⟩ := i2 s hs
          dsimp only
          rw [e']
          exact p1 f' hf'
        · intro s hs
          rcases List.mem_cons.1 hs with rfl | hs
          · exact ⟨f, by simp, rfl⟩
          · obtain ⟨f', hf', e'⟩ := i2 s hs
            exact ⟨f', by simp [hf'], e'⟩
    intro hpw hm
    exact (main l k hpw hm).1
  have hfin : ∀ anchors : List IdSeg, anchors.Perm (lowEdges e.holes 0) → (anchors.Pairwise fun x y => ¬ y.a < x.a) →
      ∃ parents : List Nat, joinSortedHoles x.bind x.sortI (e.shapes.map fun c => [c]) e.holes anchors cw =
          some (attach (e.shapes.map fun c => [c]) (e.holes.zip parents)) ∧
        ∀ sh ∈ attach (e.shapes.map fun c => [c]) (e.holes.zip parents), ProperShape sh := by
    intro anchors a1 a2
    obtain ⟨ps, -, -, p3, p4⟩ := hR.bindable.sorted hR.planar hok hs a1 a2
    exact ⟨ps, p3, hR.proper p4⟩
  unfold IOverlay.extract
  rw [he, Option.bind_some]
  dsimp only
  rw [hanch]
  cases e.sorted
  · simp only [Bool.false_eq_true, if_false]
    exact hfin _ (stableSort_perm _ _) (stableSort_byA _)
  · simp only [if_true]
    exact hfin _ (List.Perm.refl _) hsorted

end
end IOverlay
