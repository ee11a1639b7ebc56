/-
The contours of the extraction as successive walks in the sense of `TopTour`. C41, C42.
-/
import Verif.Orient
import Verif.Run

namespace IOverlay

/-- The edge of a link. -/
def Link.edge (l : Link) : Edge := ⟨l.a, l.b, (l.a, l.b)⟩

/-- The edge belongs to an unvisited link. -/
def Open (g : Graph) (vis : List Bool) (s : Edge) : Prop :=
  ∃ i l, g.links[i]? = some l ∧ isVisited vis i = false ∧ l.edge = s

theorem edge_inj {l m : Link} (h : l.edge = m.edge) : l.seg = m.seg := by
  unfold Link.edge at h
  unfold Link.seg
  simp only [Seg.mk.injEq, Prod.mk.injEq] at h
  rw [h.1, h.2.1]

section
variable {g : Graph} {V : List Pt} (hg : GraphOk g V) (hpl : Planar (g.links.map Link.seg))
  {E : List Edge} (hpE : Planar E) (hEl : ∀ l ∈ g.links, l.edge ∈ E)
include hg hpl

omit hg in
theorem open_visit {vis : List Bool} {i : Nat} {l : Link} (hl : g.links[i]? = some l) (s : Edge) :
    Open g (visit vis i) s ↔ Open g vis s ∧ s ≠ l.edge := by
  constructor
  · rintro ⟨j, m, h1, h2, rfl⟩
    rw [isVisited_visit] at h2
    simp only [Bool.or_eq_false_iff, decide_eq_false_iff_not] at h2
    refine ⟨⟨j, m, h1, h2.2, rfl⟩, ?_⟩
    intro h
    exact h2.1 (link_inj hpl h1 hl (edge_inj h))
  · rintro ⟨⟨j, m, h1, h2, rfl⟩, hne⟩
    refine ⟨j, m, h1, ?_, rfl⟩
    rw [isVisited_visit, h2]
    simp only [Bool.or_false, decide_eq_false_iff_not]
    rintro rfl
    rw [hl] at h1
    exact hne (by rw [Option.some.inj h1])

omit hpl in
theorem node_at {node : Nat} {p : Pt} (hn : V[node]? = some p) {l : Link} (hl : l ∈ g.links) :
    (l.aId = node ∨ l.bId = node) ↔ l.edge.at p := by
  have hnd' : V.Nodup := hg.sorted.imp fun {a b} h => Pt.ne_of_lt h
  have key : ∀ {k : Nat} {v : Pt}, V[k]? = some v → (k = node ↔ v = p) := by
    intro k v hk
    constructor
    · rintro rfl; rw [hk] at hn; exact Option.some.inj hn
    · rintro rfl
      exact (List.getElem?_inj (List.getElem?_eq_some_iff.1 hk).1 hnd').1 (hk.trans hn.symm)
  unfold Seg.at
  rw [key (hg.aId l hl), key (hg.bId l hl)]; rfl

theorem far_other {node : Nat} {p : Pt} (hn : V[node]? = some p) {l : Link} (hl : l ∈ g.links)
    (h : l.aId = node ∨ l.bId = node) : l.edge.far p = l.other node := by
  have lt := hg.lt l hl
  unfold Seg.far
  rcases link_ends hg hpl hl hn h with ⟨h1, h2, h3⟩ | ⟨h1, h2, h3⟩
  · have h1' : l.edge.a = p := h1
    rw [if_pos h1']; exact h2
  · have : ¬ l.edge.a = p := by
      intro e
      have e' : l.a = p := e
      rw [e', h2] at lt
      exact Pt.lt_irrefl _ lt
    rw [if_neg this]; exact h1

include hpE hEl

theorem sweep_sw {node : Nat} {p : Pt} (hn : V[node]? = some p) {l m : Link} (hl : l ∈ g.links) (hm : m ∈ g.links)
    (h : l.aId = node ∨ l.bId = node) (h' : m.aId = node ∨ m.bId = node) (cw : Bool) :
    SweepAngle cw ((l.other node).sub p) ((m.other node).sub p) (sw cw p l.edge m.edge) := by
  have h1 := hpE.hasAngle (hEl l hl) ((node_at hg hn hl).1 h)
  have h2 := hpE.hasAngle (hEl m hm) ((node_at hg hn hm).1 h')
  rw [far_other hg hpl hn hl h] at h1
  rw [far_other hg hpl hn hm h'] at h2
  have := h1.sweep h2
  unfold sw
  cases cw
  · simpa using this.1
  · simpa using this.2

/-- The walk as a list of directed edges. -/
theorem walk_tour (clockwise : Bool) (last : Nat) {q : Pt} (hq : V[last]? = some q) :
    ∀ (fuel node link : Nat) (vis : List Bool) (contour : List Pt) (p : Pt) (e0 : Dart (Pt × Pt)) (t : Link)
      (c' : List Pt) (vis' : List Bool), V[node]? = some p →
    g.links[link]? = some t → e0.s = t.edge → e0.finish = p → (t.aId = node ∨ t.bId = node) →
    isVisited vis link = true → (∀ n, dpar g vis n = xor (decide (n = node)) (decide (n = last))) →
    walk g clockwise last fuel node link vis contour = some (c', vis') →
    ∃ D : List (Dart (Pt × Pt)), c' = contour ++ D.map Dart.start ∧
      (∀ s, Open g vis' s ↔ Open g vis s ∧ s ∉ D.map (·.s)) ∧
      (∀ d ∈ D, Open g vis d.s) ∧ (D.map (·.s)).Nodup ∧
      (∀ d ∈ (e0 :: D).getLast?, d.finish = q) ∧
      (∀ pre e f post, e0 :: D = pre ++ e :: f :: post → e.finish = f.start ∧ e.finish ≠ q) ∧
      (∀ pre e f post, e0 :: D = pre ++ e :: f :: post → ∀ h ∈ E, Open g vis h → h.at e.finish →
        h ∉ (pre ++ [e]).map (·.s) → h ≠ f.s → sw clockwise e.finish e.s f.s < sw clockwise e.finish e.s h) := by
  intro fuel
  -- the walk is at its end
  have stop : ∀ (vis : List Bool) (contour : List Pt) (e0 : Dart (Pt × Pt)) (c' : List Pt) (vis' : List Bool),
      e0.finish = q → some (contour, vis) = some (c', vis') →
      ∃ D : List (Dart (Pt × Pt)), c' = contour ++ D.map Dart.start ∧
      (∀ s, Open g vis' s ↔ Open g vis s ∧ s ∉ D.map (·.s)) ∧
      (∀ d ∈ D, Open g vis d.s) ∧ (D.map (·.s)).Nodup ∧
      (∀ d ∈ (e0 :: D).getLast?, d.finish = q) ∧
      (∀ pre e f post, e0 :: D = pre ++ e :: f :: post → e.finish = f.start ∧ e.finish ≠ q) ∧
      (∀ pre e f post, e0 :: D = pre ++ e :: f :: post → ∀ h ∈ E, Open g vis h → h.at e.finish →
        h ∉ (pre ++ [e]).map (·.s) → h ≠ f.s → sw clockwise e.finish e.s f.s < sw clockwise e.finish e.s h) := by
    intro vis contour e0 c' vis' hf he
    have he := Option.some.inj he
    simp only [Prod.mk.injEq] at he
    obtain ⟨rfl, rfl⟩ := he
    have nodec : ∀ pre (e f : Dart (Pt × Pt)) post, [e0] ≠ pre ++ e :: f :: post := by
      intro pre e f post h
      have := congrArg List.length h
      simp at this
      omega
    refine ⟨[], by simp, by simp, by simp, by simp, ?_, ?_, ?_⟩
    · intro d hd
      simp at hd; rw [← hd]; exact hf
    · intro pre e f post h; exact absurd h (nodec pre e f post)
    · intro pre e f post h; exact absurd h (nodec pre e f post)
  induction fuel with
  | zero =>
    intro node link vis contour p e0 t c' vis' hp ht hes hef hin hv hd hw
    by_cases hnl : node = last
    · subst hnl
      rw [hp] at hq
      obtain rfl := Option.some.inj hq
      rw [walk, if_pos rfl] at hw
      exact stop vis contour e0 c' vis' hef hw
    · rw [walk, if_neg hnl] at hw; simp at hw
  | succ fuel ih =>
    intro node link vis contour p e0 t c' vis' hp ht hes hef hin hv hd hw
    by_cases hnl : node = last
    · subst hnl
      rw [hp] at hq
      obtain rfl := Option.some.inj hq
      rw [walk, if_pos rfl] at hw
      exact stop vis contour e0 c' vis' hef hw
    · have hpq : p ≠ q := by
        have hnd' : V.Nodup := hg.sorted.imp fun {a b} h => Pt.ne_of_lt h
        rintro rfl
        exact hnl ((List.getElem?_inj (List.getElem?_eq_some_iff.1 hp).1 hnd').1 (hp.trans hq.symm))
      have hodd : dpar g vis node = true := by rw [hd node]; simp [hnl]
      obtain ⟨k, -, k2, k3⟩ := dpar_true hodd
      obtain ⟨i, l, n1, hl, hln, n3, n4⟩ := nextLink_first hg hpl (clockwise := clockwise) hp ht hin hv ⟨k, k3, k2⟩
      have hmem := List.mem_of_getElem? hl
      have htm := List.mem_of_getElem? ht
      have hne := ends_ne hg hmem
      rw [walk, if_neg hnl] at hw
      simp only [n1, Option.bind_some, hl] at hw
      have key : ∀ (node' : Nat) (p' : Pt) (fwd : Bool), V[node']? = some p' →
          (∀ n, inc g i n = (decide (n = node) || decide (n = node'))) → node ≠ node' →
          (l.aId = node' ∨ l.bId = node') → (⟨l.edge, fwd⟩ : Dart (Pt × Pt)).start = p →
          (⟨l.edge, fwd⟩ : Dart (Pt × Pt)).finish = p' →
          walk g clockwise last fuel node' i (visit vis i) (contour ++ [p]) = some (c', vis') →
          ∃ D : List (Dart (Pt × Pt)), c' = contour ++ D.map Dart.start ∧
          (∀ s, Open g vis' s ↔ Open g vis s ∧ s ∉ D.map (·.s)) ∧
          (∀ d ∈ D, Open g vis d.s) ∧ (D.map (·.s)).Nodup ∧
          (∀ d ∈ (e0 :: D).getLast?, d.finish = q) ∧
          (∀ pre e f post, e0 :: D = pre ++ e :: f :: post → e.finish = f.start ∧ e.finish ≠ q) ∧
          (∀ pre e f post, e0 :: D = pre ++ e :: f :: post → ∀ h ∈ E, Open g vis h → h.at e.finish →
            h ∉ (pre ++ [e]).map (·.s) → h ≠ f.s →
            sw clockwise e.finish e.s f.s < sw clockwise e.finish e.s h) := by
        intro node' p' fwd hp' hinc hnn hli hst hfi hw
        obtain ⟨D, d1, d2, d3, d4, d5, d6, d7⟩ := ih node' i (visit vis i) (contour ++ [p]) p' ⟨l.edge, fwd⟩ l c' vis'
          hp' hl rfl hfi hli (by rw [isVisited_visit]; simp) (by
            intro n
            rw [dpar_visit (List.getElem?_eq_some_iff.1 hl).1 n3, hinc, hd n]
            by_cases c1 : n = node
            · subst c1; simp [hnn, hnl]
            · simp [c1]) hw
        refine ⟨⟨l.edge, fwd⟩ :: D, ?_, ?_, ?_, ?_, ?_, ?_, ?_⟩
        · rw [d1, List.map_cons, hst]; simp
        · intro s
          rw [d2 s, open_visit hpl hl s, List.map_cons, List.mem_cons]
          push Not
          constructor
          · rintro ⟨⟨h1, h2⟩, h3⟩; exact ⟨h1, h2, h3⟩
          · rintro ⟨h1, h2, h3⟩; exact ⟨⟨h1, h2⟩, h3⟩
        · intro d hd'
          rcases List.mem_cons.1 hd' with rfl | h
          · exact ⟨i, l, hl, n3, rfl⟩
          · exact ((open_visit hpl hl d.s).1 (d3 d h)).1
        · rw [List.map_cons, List.nodup_cons]
          refine ⟨?_, d4⟩
          intro h
          obtain ⟨d, hd', he⟩ := List.mem_map.1 h
          exact ((open_visit hpl hl d.s).1 (d3 d hd')).2 he
        · intro d hd'
          exact d5 d (by rwa [List.getLast?_cons_cons] at hd')
        · intro pre e f post hD
          rcases pre with _ | ⟨x, pre⟩
          · simp only [List.nil_append, List.cons.injEq] at hD
            obtain ⟨rfl, rfl, -⟩ := hD
            rw [hef, hst]; exact ⟨rfl, hpq⟩
          · simp only [List.cons_append, List.cons.injEq] at hD
            exact d6 pre e f post hD.2
        · intro pre e f post hD h hhE hop hat hnin hnf
          rcases pre with _ | ⟨x, pre⟩
          · simp only [List.nil_append, List.cons.injEq] at hD
            obtain ⟨rfl, rfl, -⟩ := hD
            obtain ⟨j, m, hj, hjv, rfl⟩ := hop
            have hmm := List.mem_of_getElem? hj
            rw [hef] at hat ⊢
            have hmn := (node_at hg hp hmm).2 hat
            have hji : j ≠ i := by
              rintro rfl
              rw [hl] at hj
              exact hnf (by rw [Option.some.inj hj])
            have := n4 j m hj hmn hjv hji _ (sweep_sw hg hpl hpE hEl hp htm hmem hin hln clockwise) _
              (sweep_sw hg hpl hpE hEl hp htm hmm hin hmn clockwise)
            rw [hes]
            exact this
          · simp only [List.cons_append, List.cons.injEq] at hD
            have hne' : h ≠ l.edge := by
              rintro rfl
              apply hnin
              have : (⟨l.edge, fwd⟩ : Dart (Pt × Pt)) ∈ pre ++ [e] := by
                rcases pre with _ | ⟨y, pre⟩
                · simp only [List.nil_append, List.cons.injEq] at hD
                  rw [hD.2.1]; simp
                · simp only [List.cons_append, List.cons.injEq] at hD
                  rw [hD.2.1]; simp
              exact List.mem_map_of_mem (f := fun d : Dart (Pt × Pt) => d.s) (List.mem_cons_of_mem _ this)
            refine d7 pre e f post hD.2 h hhE ((open_visit hpl hl h).2 ⟨hop, hne'⟩) hat ?_ hnf
            intro h'
            apply hnin
            rw [List.cons_append, List.map_cons]
            exact List.mem_cons_of_mem _ h'
      by_cases ha : l.aId = node
      · rw [if_pos ha] at hw
        have hpa : l.a = p := by
          have := hg.aId l hmem
          rw [ha, hp] at this; exact (Option.some.inj this).symm
        rw [hpa] at hw
        refine key l.bId l.b true (hg.bId l hmem) ?_ (by rw [← ha]; exact hne) (Or.inr rfl) hpa rfl hw
        intro n; unfold inc; rw [hl]; simp [← ha, eq_comm]
      · rw [if_neg ha] at hw
        have hb : l.bId = node := hln.resolve_left ha
        have hpb : l.b = p := by
          have := hg.bId l hmem
          rw [hb, hp] at this; exact (Option.some.inj this).symm
        rw [hpb] at hw
        refine key l.aId l.a false (hg.aId l hmem) ?_ (Ne.symm ha) (Or.inl rfl) hpb rfl hw
        intro n; unfold inc; rw [hl]; simp [← hb, eq_comm, Bool.or_comm]

/-- One contour as a walk. -/
theorem getContour_tour {vis : List Bool} (hd : ∀ n, dpar g vis n = false) {lt : Nat} {l : Link}
    (hl : g.links[lt]? = some l) (hv : isVisited vis lt = false) (direction : Bool) {c' : List Pt} {vis' : List Bool}
    (h : getContour g g.links.length (StartPath.new direction l lt) direction vis = some (c', vis')) :
    ∃ D : List (Dart (Pt × Pt)), c' = D.map Dart.start ∧ D.head? = some ⟨l.edge, !direction⟩ ∧
      (∀ s, Open g vis' s ↔ Open g vis s ∧ s ∉ D.map (·.s)) ∧ ∃ q, Tour direction E (Open g vis) q D := by
  have hmem := List.mem_of_getElem? hl
  have hne := ends_ne hg hmem
  have hlt := (List.getElem?_eq_some_iff.1 hl).1
  have hinc : ∀ n, inc g lt n = (decide (n = l.aId) || decide (n = l.bId)) := by
    intro n; unfold inc; rw [hl]; simp [eq_comm]
  have main : ∀ (node last : Nat) (p q : Pt), V[node]? = some p → V[last]? = some q → node ≠ last →
      (∀ n, inc g lt n = (decide (n = node) || decide (n = last))) → (l.aId = node ∨ l.bId = node) →
      (⟨l.edge, !direction⟩ : Dart (Pt × Pt)).finish = p → (⟨l.edge, !direction⟩ : Dart (Pt × Pt)).start = q →
      walk g direction last g.links.length node lt (visit vis lt) [q] = some (c', vis') →
      ∃ D : List (Dart (Pt × Pt)), c' = D.map Dart.start ∧ D.head? = some ⟨l.edge, !direction⟩ ∧
      (∀ s, Open g vis' s ↔ Open g vis s ∧ s ∉ D.map (·.s)) ∧ ∃ q, Tour direction E (Open g vis) q D := by
    intro node last p q hp hq hnl hin hln hfi hst hw
    obtain ⟨D, d1, d2, d3, d4, d5, d6, d7⟩ :=
      walk_tour hg hpl hpE hEl direction last hq g.links.length node lt (visit vis lt) [q] p ⟨l.edge, !direction⟩ l
        c' vis' hp hl rfl hfi hln (by rw [isVisited_visit]; simp) (by
          intro n
          rw [dpar_visit hlt hv, hin, hd n]
          by_cases c1 : n = node
          · subst c1; simp [hnl]
          · simp [c1]) hw
    refine ⟨⟨l.edge, !direction⟩ :: D, ?_, rfl, ?_, q, ?_, ?_, ?_, d5, d6, ?_⟩
    · rw [d1, List.map_cons, hst]; rfl
    · intro s
      rw [d2 s, open_visit hpl hl s, List.map_cons, List.mem_cons]
      push Not
      constructor
      · rintro ⟨⟨h1, h2⟩, h3⟩; exact ⟨h1, h2, h3⟩
      · rintro ⟨h1, h2, h3⟩; exact ⟨⟨h1, h2⟩, h3⟩
    · have ofOpen : ∀ s, Open g vis s → s ∈ E := by
        rintro s ⟨j, m, hj, -, rfl⟩
        exact hEl m (List.mem_of_getElem? hj)
      intro d hd'
      have : Open g vis d.s := by
        rcases List.mem_cons.1 hd' with rfl | h
        · exact ⟨lt, l, hl, hv, rfl⟩
        · exact ((open_visit hpl hl d.s).1 (d3 d h)).1
      exact ⟨ofOpen _ this, this⟩
    · rw [List.map_cons, List.nodup_cons]
      refine ⟨?_, d4⟩
      intro h
      obtain ⟨d, hd', he⟩ := List.mem_map.1 h
      exact ((open_visit hpl hl d.s).1 (d3 d hd')).2 he
    · intro d hd'
      simp at hd'; rw [← hd']; exact hst
    · intro pre e f post hD h hhE hop hat hnin hnf
      refine d7 pre e f post hD h hhE ((open_visit hpl hl h).2 ⟨hop, ?_⟩) hat hnin hnf
      rintro rfl
      apply hnin
      have : (⟨l.edge, !direction⟩ : Dart (Pt × Pt)) ∈ pre ++ [e] := by
        rcases pre with _ | ⟨y, pre⟩
        · simp only [List.nil_append, List.cons.injEq] at hD
          rw [hD.1]; simp
        · simp only [List.cons_append, List.cons.injEq] at hD
          rw [hD.1]; simp
      exact List.mem_map_of_mem (f := fun d : Dart (Pt × Pt) => d.s) this
  unfold getContour StartPath.new at h
  cases direction
  · exact main l.bId l.aId l.b l.a (hg.bId l hmem) (hg.aId l hmem) (Ne.symm hne)
      (by intro n; rw [hinc, Bool.or_comm]) (Or.inr rfl) rfl rfl h
  · exact main l.aId l.bId l.a l.b (hg.aId l hmem) (hg.bId l hmem) hne hinc (Or.inl rfl) rfl rfl h

end

/-- A contour found by the extraction: hole or outer boundary, start edge, directed edges. -/
structure Found where
  hole : Bool
  top : Edge
  darts : List (Dart (Pt × Pt))

/-- The points of a contour. -/
def Found.raw (f : Found) : List Pt := f.darts.map Dart.start

/-- The same as a walked contour. -/
def Found.walked (f : Found) : Walked := ⟨[], f.raw, f.hole⟩

/-- Contours found one after the other, each through the edges left. -/
inductive Tours (clockwise : Bool) (E : List Edge) : (Edge → Prop) → List Found → Prop
  | nil (U) : Tours clockwise E U []
  | cons {U : Edge → Prop} {f : Found} {fs : List Found} :
      TopTour (f.hole == clockwise) E U f.top f.darts →
      Tours clockwise E (fun s => U s ∧ s ∉ f.darts.map (·.s)) fs → Tours clockwise E U (f :: fs)

/-- Registration of the walked contours one after the other; those that are too small are left out. -/
def pushAll (clockwise : Bool) (clean : List Pt → List Pt × Bool) (minArea : Nat) (e : Extracted) (fs : List Found) :
    Option Extracted :=
  fs.foldlM (fun e f => if (validate clean minArea f.raw).1 then e.push clockwise f.hole (clean f.raw).2 (clean f.raw).1
    else some e) e

/-- Links are listed by their left ends. -/
theorem links_sorted {links : List Link} (hpl : Planar (links.map Link.seg)) {i j : Nat} {l m : Link}
    (hi : links[i]? = some l) (hj : links[j]? = some m) (hlt : l.a < m.a) : i < j := by
  by_contra hc
  have hij : j < i ∨ j = i := by omega
  rcases hij with hij | rfl
  · have hp := (List.pairwise_iff_getElem.1 hpl.sorted) j i
      (by rw [List.length_map]; exact (List.getElem?_eq_some_iff.1 hj).1)
      (by rw [List.length_map]; exact (List.getElem?_eq_some_iff.1 hi).1) hij
    rw [List.getElem_map, List.getElem_map, (List.getElem?_eq_some_iff.1 hj).2, (List.getElem?_eq_some_iff.1 hi).2] at hp
    rcases hp with hp | ⟨hp, -⟩
    · exact Pt.lt_asymm hlt hp
    · have hp : m.a = l.a := hp
      rw [hp] at hlt
      exact Pt.lt_irrefl _ hlt
  · rw [hi] at hj
    obtain rfl := Option.some.inj hj
    exact Pt.lt_irrefl _ hlt

/-- No three links left share their left end. -/
def TwoRight (g : Graph) (vis : List Bool) : Prop :=
  ∀ i j k l m n, g.links[i]? = some l → g.links[j]? = some m → g.links[k]? = some n →
    isVisited vis i = false → isVisited vis j = false → isVisited vis k = false → l.a = m.a → l.a = n.a →
    i = j ∨ i = k ∨ j = k

section
variable {g : Graph} {V : List Pt} (hg : GraphOk g V) (hpl : Planar (g.links.map Link.seg))
include hg hpl

/-- A walk started for the first link left goes through it. -/
theorem start_visited {vis vis' : List Bool} (h2 : TwoRight g vis) (hd : ∀ n, dpar g vis n = false)
    (hd' : ∀ n, dpar g vis' n = false) {li lt : Nat} {l : Link} {trail : List Nat}
    (hall : ∀ i < li, isVisited vis i = true) (hli : li < g.links.length) (hv : isVisited vis li = false)
    (f1 : findLeftTop g li vis = some lt) (f2 : g.links[lt]? = some l) (f3 : isVisited vis lt = false)
    (h5 : ∀ i, isVisited vis' i = (isVisited vis i || decide (i ∈ lt :: trail))) : isVisited vis' li = true := by
  have hm : g.links[li]? = some g.links[li] := List.getElem?_eq_getElem hli
  obtain ⟨-, q2, -⟩ := findLeftTop_top hg hpl hd hm hv
    (fun i f hf hlt => hall i (links_sorted hpl hf hm hlt)) f1 f2
  by_contra hc
  have hc : isVisited vis' li = false := by simpa using hc
  have hlt' : isVisited vis' lt = true := by rw [h5]; simp
  have hne : li ≠ lt := by rintro rfl; rw [hc] at hlt'; cases hlt'
  have hmem := List.mem_of_getElem? hm
  have hinc : inc g li g.links[li].aId = true := by unfold inc; rw [hm]; simp
  have hone : ∀ j < g.links.length, (!isVisited vis' j && inc g j g.links[li].aId) = decide (j = li) := by
    intro j hj
    by_cases hjl : j = li
    · subst hjl; rw [hc, hinc]; simp
    · rw [decide_eq_false hjl]
      by_contra hb
      have hb : (!isVisited vis' j && inc g j g.links[li].aId) = true := by simpa using hb
      rw [Bool.and_eq_true, Bool.not_eq_true'] at hb
      have hjv : isVisited vis j = false := by
        have := hb.1
        rw [h5] at this
        exact (Bool.or_eq_false_iff.1 this).1
      have hjm : g.links[j]? = some g.links[j] := List.getElem?_eq_getElem hj
      have hjmem := List.mem_of_getElem? hjm
      have hinc2 := hb.2
      unfold inc at hinc2
      rw [hjm] at hinc2
      simp only [Bool.or_eq_true, decide_eq_true_eq] at hinc2
      have ha : g.links[j].a = g.links[li].a := by
        rcases hinc2 with h | h
        · have e1 := hg.aId _ hjmem
          rw [h, hg.aId _ hmem] at e1
          exact (Option.some.inj e1).symm
        · exfalso
          have e1 := hg.bId _ hjmem
          rw [h, hg.aId _ hmem] at e1
          have e2 := Option.some.inj e1
          have := hg.lt _ hjmem
          rw [← e2] at this
          rw [hall j (links_sorted hpl hjm hm this)] at hjv
          cases hjv
      rcases h2 li lt j _ _ _ hm f2 hjm hv f3 hjv q2.symm ha.symm with h | h | h
      · exact hne h
      · exact hjl h.symm
      · subst h; rw [hb.1] at hlt'; cases hlt'
  have : dpar g vis' g.links[li].aId = true := by
    unfold dpar
    rw [par_congr (p' := fun j => decide (j = li)) fun j hj => hone j (List.mem_range.1 hj), par_eq_countP]
    have : (List.range g.links.length).countP (fun j => decide (j = li)) = 1 := by
      have := List.count_eq_one_of_mem List.nodup_range (List.mem_range.2 hli)
      rw [List.count_eq_countP] at this
      rw [← this]
      refine List.countP_congr fun x _ => ?_
      simp
    rw [this]; rfl
  rw [hd'] at this
  cases this

omit hg hpl in
theorem TwoRight.mono {vis vis' : List Bool} (h2 : TwoRight g vis)
    (h : ∀ i, isVisited vis' i = false → isVisited vis i = false) : TwoRight g vis' := by
  intro i j k l m n hi hj hk vi vj vk
  exact h2 i j k l m n hi hj hk (h i vi) (h j vj) (h k vk)

end

section
variable {g : Graph} {V : List Pt} (hg : GraphOk g V) (hpl : Planar (g.links.map Link.seg))
  {E : List Edge} (hpE : Planar E) (hEl : ∀ l ∈ g.links, l.edge ∈ E)
include hg hpl hpE hEl

/-- The main loop of the extraction as successive walks. -/
theorem extractLoop_tours (rule : OverlayRule) (clockwise : Bool) (clean : List Pt → List Pt × Bool)
    (minArea : Nat) : ∀ (fuel li : Nat) (vis : List Bool) (e e' : Extracted), vis.length = g.links.length →
    (∀ n, dpar g vis n = false) → extractLoop g rule clockwise clean minArea fuel li vis e = some e' →
    ∃ fs : List Found,
      e'.shapes = e.shapes ++ keptContours clean minArea false (fs.map Found.walked) ∧
      e'.holes = e.holes ++ keptContours clean minArea true (fs.map Found.walked) ∧
      (∀ f ∈ fs, (∃ trail : List Nat, trail.Nodup ∧ trail ≠ [] ∧ ClosedTrail g.links trail f.raw) ∧
        ∃ i l, g.links[i]? = some l ∧ isVisited vis i = false ∧ l.edge = f.top ∧ f.hole = isFillTop rule l.fill) ∧
      ((∀ i < li, isVisited vis i = true) → (TwoRight g vis ∨ ∀ f ∈ fs, (validate clean minArea f.raw).1 = true) →
        Tours clockwise E (Open g vis) fs ∧ ∀ s, Open g vis s → s ∈ fs.flatMap fun f => f.darts.map (·.s)) ∧
      ((∀ f ∈ fs, (clean f.raw).2 = false) → e'.sorted = e.sorted ∧
        e'.anchors = e.anchors ++ ((keptContours clean minArea true (fs.map Found.walked)).zipIdx e.holes.length).filterMap
          fun h => (holeSegment clockwise h.1).map fun v => (h.2, v)) ∧
      pushAll clockwise clean minArea e fs = some e' := by
  intro fuel
  induction fuel with
  | zero => intro li vis e e' _ _ h; simp [extractLoop] at h
  | succ fuel ih =>
    intro li vis e e' hlen hd h
    rw [extractLoop] at h
    by_cases c1 : li < vis.length
    · rw [if_pos c1] at h
      by_cases c2 : isVisited vis li = true
      · rw [if_pos c2] at h
        obtain ⟨fs, h1, h2, h3, h4, h5, h6⟩ := ih (li + 1) vis e e' hlen hd h
        refine ⟨fs, h1, h2, h3, fun hl => h4 ?_, h5, h6⟩
        intro i hi
        rcases Nat.lt_succ_iff_lt_or_eq.1 hi with h | rfl
        · exact hl i h
        · exact c2
      · rw [if_neg c2] at h
        have hv : isVisited vis li = false := by simpa using c2
        have hli : li < g.links.length := by omega
        obtain ⟨lt, l, f1, f2, f3⟩ := findLeftTop_spec hg hd hli hv
        rw [f1, Option.bind_some, f2, Option.bind_some] at h
        dsimp only at h
        obtain ⟨trail, pts, vis', g1, g2, g3, g4, g5, g6, g7, g8, -⟩ :=
          getContour_spec hg hd f2 f3 (isFillTop rule l.fill == clockwise) (isFillTop rule l.fill == clockwise)
        obtain ⟨D, t1, t2, t3, t4⟩ := getContour_tour hg hpl hpE hEl hd f2 f3 _ g1
        rw [g1, Option.bind_some] at h
        dsimp only at h
        have hct : ∃ trail : List Nat, trail.Nodup ∧ trail ≠ [] ∧ ClosedTrail g.links trail (D.map Dart.start) :=
          ⟨lt :: trail, g3, by simp, by rw [← t1]; exact g8.closed⟩
        rw [t1] at h
        have hraw : ∀ b, (⟨b, l.edge, D⟩ : Found).raw = D.map Dart.start := fun b => rfl
        -- the walk starts at the topmost edge of the leftmost vertex
        have htop : (∀ i < li, isVisited vis i = true) →
            TopTour (isFillTop rule l.fill == clockwise) E (Open g vis) l.edge D := by
          intro hall
          have hm : g.links[li]? = some g.links[li] := List.getElem?_eq_getElem hli
          obtain ⟨-, q2, q3⟩ := findLeftTop_top hg hpl hd hm hv
            (fun i f hf hlt => hall i (links_sorted hpl hf hm hlt)) f1 f2
          refine ⟨t4, t2, ?_, ?_⟩
          · rintro s - ⟨j, m, hj, hjv, rfl⟩ hlt
            have hlt' : m.a < g.links[li].a := by rw [← q2]; exact hlt
            rw [hall j (links_sorted hpl hj hm hlt')] at hjv
            exact absurd hjv (by simp)
          · rintro s - ⟨j, m, hj, hjv, rfl⟩ ha hne
            have := q3 j m hj hjv (by rw [← q2]; exact ha) (by
              rintro rfl
              rw [f2] at hj
              exact hne (by rw [Option.some.inj hj]))
            rw [← q2] at this
            exact this
        have hopen : (fun s => Open g vis s ∧ s ∉ D.map (·.s)) = Open g vis' := by
          funext s; exact propext (t3 s).symm
        have hvis : ∀ i l', g.links[i]? = some l' → isVisited vis' i = false → isVisited vis i = false := by
          intro i _ _ h'
          rw [g5] at h'
          exact (Bool.or_eq_false_iff.1 h').1
        by_cases c3 : (validate clean minArea (D.map Dart.start)).1 = true
        · rw [if_neg (by simp [c3])] at h
          have hlen3 := validate_len c3
          obtain ⟨e1, p1, p2, p3, p4⟩ := push_spec e clockwise (isFillTop rule l.fill)
            (validate clean minArea (D.map Dart.start)).2.1 (c := (clean (D.map Dart.start)).1) hlen3
          rw [validate_snd, p1, Option.bind_some] at h
          obtain ⟨fs, h1, h2, h3, h4, h5, h6⟩ := ih li vis' e1 e' (by omega) g6 h
          refine ⟨⟨isFillTop rule l.fill, l.edge, D⟩ :: fs, ?_, ?_, ?_, ?_, ?_, ?_⟩
          · rw [h1, p2, List.map_cons]
            unfold keptContours
            rw [List.filter_cons]
            cases isFillTop rule l.fill <;> simp [c3, Found.walked, Found.raw]
          · rw [h2, p3, List.map_cons]
            unfold keptContours
            rw [List.filter_cons]
            cases isFillTop rule l.fill <;> simp [c3, Found.walked, Found.raw]
          · intro f hf
            rcases List.mem_cons.1 hf with rfl | hf
            · exact ⟨hct, lt, l, f2, f3, rfl, rfl⟩
            · obtain ⟨k0, i, l', k1, k2, k3⟩ := h3 f hf
              exact ⟨k0, i, l', k1, hvis i l' k1 k2, k3⟩
          · intro k1 k2
            obtain ⟨m1, m2⟩ := h4 (by intro i hi; rw [g5, k1 i hi]; rfl) (k2.imp
              (fun h2 => h2.mono fun i hi => by rw [g5] at hi; exact (Bool.or_eq_false_iff.1 hi).1)
              fun k2 f hf => k2 f (List.mem_cons_of_mem _ hf))
            refine ⟨Tours.cons (htop k1) ?_, ?_⟩
            · rw [← hopen] at m1; exact m1
            · intro s hs
              rw [List.flatMap_cons, List.mem_append]
              by_cases hin : s ∈ D.map (·.s)
              · exact Or.inl hin
              · exact Or.inr (m2 s ((t3 s).2 ⟨hs, hin⟩))
          · intro k1
            obtain ⟨m1, m2⟩ := h5 fun f hf => k1 f (List.mem_cons_of_mem _ hf)
            have hm : (validate clean minArea (D.map Dart.start)).2.1 = false := by
              have : (validate clean minArea (D.map Dart.start)).2.1 = (clean (D.map Dart.start)).2 := by
                unfold validate; dsimp only; split
                · rfl
                · split <;> rfl
              rw [this]
              exact k1 ⟨isFillTop rule l.fill, l.edge, D⟩ (by simp)
            rw [hm] at p1
            obtain ⟨q1, q2⟩ := push_kept p1
            refine ⟨m1.trans q1, ?_⟩
            rw [m2, q2, p3, List.append_assoc, ← List.filterMap_append, List.length_append, ← List.zipIdx_append]
            congr 3
            rw [List.map_cons]
            unfold keptContours
            rw [List.filter_cons]
            cases isFillTop rule l.fill <;> simp [c3, Found.walked, Found.raw]
          · unfold pushAll
            rw [List.foldlM_cons, if_pos (show (validate clean minArea (Found.raw ⟨isFillTop rule l.fill, l.edge, D⟩)).1 = true from c3)]
            have hm : (validate clean minArea (D.map Dart.start)).2.1 = (clean (D.map Dart.start)).2 := by
              unfold validate; dsimp only; split
              · rfl
              · split <;> rfl
            rw [hm] at p1
            show Option.bind (e.push clockwise (isFillTop rule l.fill) (clean (D.map Dart.start)).2
              (clean (D.map Dart.start)).1) _ = _
            rw [p1]
            exact h6
        · rw [if_pos (by simp [c3])] at h
          obtain ⟨fs, h1, h2, h3, h4, h5, h6⟩ := ih (li + 1) vis' e e' (by omega) g6 h
          refine ⟨⟨isFillTop rule l.fill, l.edge, D⟩ :: fs, ?_, ?_, ?_, ?_, ?_, ?_⟩
          · rw [h1, List.map_cons]
            unfold keptContours
            rw [List.filter_cons]
            simp [c3, Found.walked, Found.raw]
          · rw [h2, List.map_cons]
            unfold keptContours
            rw [List.filter_cons]
            simp [c3, Found.walked, Found.raw]
          · intro f hf
            rcases List.mem_cons.1 hf with rfl | hf
            · exact ⟨hct, lt, l, f2, f3, rfl, rfl⟩
            · obtain ⟨k0, i, l', k1, k2, k3⟩ := h3 f hf
              exact ⟨k0, i, l', k1, hvis i l' k1 k2, k3⟩
          · intro k1 k2
            rcases k2 with h2 | k2
            · obtain ⟨m1, m2⟩ := h4 (by
                intro i hi
                rcases Nat.lt_succ_iff_lt_or_eq.1 hi with hi | rfl
                · rw [g5, k1 i hi]; rfl
                · exact start_visited hg hpl h2 hd g6 k1 hli hv f1 f2 f3 g5)
                (Or.inl (h2.mono fun i hi => by rw [g5] at hi; exact (Bool.or_eq_false_iff.1 hi).1))
              refine ⟨Tours.cons (htop k1) ?_, ?_⟩
              · rw [← hopen] at m1; exact m1
              · intro s hs
                rw [List.flatMap_cons, List.mem_append]
                by_cases hin : s ∈ D.map (·.s)
                · exact Or.inl hin
                · exact Or.inr (m2 s ((t3 s).2 ⟨hs, hin⟩))
            · exact absurd (k2 ⟨isFillTop rule l.fill, l.edge, D⟩ (by simp)) c3
          · intro k1
            obtain ⟨m1, m2⟩ := h5 fun f hf => k1 f (List.mem_cons_of_mem _ hf)
            refine ⟨m1, ?_⟩
            rw [m2, List.map_cons]
            unfold keptContours
            rw [List.filter_cons]
            simp [c3, Found.walked, Found.raw]
          · unfold pushAll
            rw [List.foldlM_cons, if_neg (show ¬ (validate clean minArea (Found.raw ⟨isFillTop rule l.fill, l.edge, D⟩)).1 = true from c3)]
            exact h6
    · rw [if_neg c1] at h
      obtain rfl := Option.some.inj h
      refine ⟨[], by simp [keptContours], by simp [keptContours], by simp, ?_, fun _ => by simp [keptContours], rfl⟩
      intro k1 _
      refine ⟨Tours.nil _, ?_⟩
      rintro s ⟨i, l, -, hi, -⟩
      have := unvisited_lt hi
      rw [k1 i (by omega)] at hi
      exact absurd hi (by simp)

end

end IOverlay
