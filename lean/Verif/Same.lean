/-
The walks of an extraction are determined by the edges of the result: two runs on the same noded edges find the
same contours in the same order. C68.
-/
import Verif.Keys

namespace IOverlay

theorem Dart.ext' {d d' : Dart (Pt × Pt)} (h : d.s = d'.s) (hf : d.fwd = d'.fwd) : d = d' := by
  cases d; cases d'; simp_all

theorem Tour.fresh {C : Type} {E : List (Seg C)} {cw : Bool} {U : Seg C → Prop} {q : Pt} {D : List (Dart C)}
    (h : Tour cw E U q D) {pre post : List (Dart C)} {e f : Dart C} (hD : D = pre ++ e :: f :: post) :
    f.s ∉ (pre ++ [e]).map (·.s) := by
  have hn := h.nodup
  rw [hD, show pre ++ e :: f :: post = (pre ++ [e]) ++ f :: post by simp, List.map_append, List.nodup_append] at hn
  intro hc
  exact hn.2.2 _ hc _ (by simp) rfl

section
variable {E : List Edge} (hp : Planar E)
include hp

theorem Planar.dart_eq {d d' : Dart (Pt × Pt)} (hs : d.s = d'.s) (hE : d.s ∈ E) (h : d.start = d'.start) : d = d' := by
  refine Dart.ext' hs ?_
  have hn := hp.ab_ne hE
  unfold Dart.start at h
  rw [← hs] at h
  cases h1 : d.fwd <;> cases h2 : d'.fwd <;> simp [h1, h2] at h ⊢
  · exact hn h.symm
  · exact hn h

/-- A walk is determined by its start. -/
theorem Tour.eq_of_start {cw : Bool} {U : Edge → Prop} {q q' : Pt} {D D' : List (Dart (Pt × Pt))}
    (h : Tour cw E U q D) (h' : Tour cw E U q' D') (h0 : D.head? = D'.head?) : D = D' := by
  rcases D with _ | ⟨e, post⟩
  · rcases D' with _ | ⟨e', post'⟩
    · rfl
    · simp at h0
  rcases D' with _ | ⟨e', post'⟩
  · simp at h0
  obtain rfl : e = e' := by simpa using h0
  have hq : q = q' := (h.first e rfl).symm.trans (h'.first e rfl)
  subst hq
  have main : ∀ (post pre post' : List (Dart (Pt × Pt))) (e : Dart (Pt × Pt)), Tour cw E U q (pre ++ e :: post) →
      Tour cw E U q (pre ++ e :: post') → post = post' := by
    intro post
    induction post with
    | nil =>
      intro pre post' e h h'
      rcases post' with _ | ⟨f', post'⟩
      · rfl
      · exact absurd (h.last e (by simp)) (h'.next pre e f' post' rfl).2
    | cons f post ih =>
      intro pre post' e h h'
      rcases post' with _ | ⟨f', post'⟩
      · exact absurd (h'.last e (by simp)) (h.next pre e f post rfl).2
      · have n1 := (h.next pre e f post rfl).1
        have n2 := (h'.next pre e f' post' rfl).1
        have m1 := h.mem f (by simp)
        have m2 := h'.mem f' (by simp)
        have a1 : f.s.at e.finish := by rw [n1]; exact f.at_start
        have a2 : f'.s.at e.finish := by rw [n2]; exact f'.at_start
        have hs : f.s = f'.s := by
          by_contra hc
          have t1 := h.turns pre e f post rfl f'.s m2.1 m2.2 a2 (h'.fresh rfl) (Ne.symm hc)
          have t2 := h'.turns pre e f' post' rfl f.s m1.1 m1.2 a1 (h.fresh rfl) hc
          exact lt_asymm t1 t2
        obtain rfl := hp.dart_eq hs m1.1 (n1.symm.trans n2)
        rw [ih (pre ++ [e]) post' f (by simpa using h) (by simpa using h')]
  rw [main post [] post' e h h']

omit hp in
theorem TopTour.top_unique {cw cw' : Bool} {U : Edge → Prop} {T T' : Edge} {D D' : List (Dart (Pt × Pt))}
    (h : TopTour cw E U T D) (h' : TopTour cw' E U T' D') : T = T' := by
  have m : T ∈ E ∧ U T := by
    obtain ⟨q, ht⟩ := h.tour
    exact ht.mem ⟨T, !cw⟩ h.head_mem
  have m' : T' ∈ E ∧ U T' := by
    obtain ⟨q, ht⟩ := h'.tour
    exact ht.mem ⟨T', !cw'⟩ h'.head_mem
  by_contra hc
  have ha : T.a = T'.a := by
    rcases Pt.lt_tri T.a T'.a with h1 | h1 | h1
    · exact absurd h1 (h'.min T m.1 m.2)
    · exact h1
    · exact absurd h1 (h.min T' m'.1 m'.2)
  have t1 := h.top T' m'.1 m'.2 ha.symm (Ne.symm hc)
  have t2 := h'.top T m.1 m.2 ha hc
  rw [ha] at t1
  unfold area2 at t1 t2
  nlinarith

/-- The contours found are determined by the edges of the result. -/
theorem Tours.unique {clockwise : Bool} {R : Edge → Prop} {fs fs' : List Found} (h : Tours clockwise E R fs)
    (h' : Tours clockwise E R fs') (hall : ∀ s, R s → s ∈ fs.flatMap fun f => f.darts.map (·.s))
    (hall' : ∀ s, R s → s ∈ fs'.flatMap fun f => f.darts.map (·.s)) (G : Edge → Bool)
    (hh : ∀ f ∈ fs, f.hole = G f.top) (hh' : ∀ f ∈ fs', f.hole = G f.top) : fs = fs' := by
  induction h generalizing fs' with
  | nil U =>
    cases h' with
    | nil => rfl
    | @cons _ f gs t _ =>
      obtain ⟨q, ht⟩ := t.tour
      have := hall _ (ht.mem _ t.head_mem).2
      simp at this
  | @cons U f fs t ts ih =>
    cases h' with
    | nil =>
      obtain ⟨q, ht⟩ := t.tour
      have := hall' _ (ht.mem _ t.head_mem).2
      simp at this
    | @cons _ f' fs' t' ts' =>
      have e1 : f.top = f'.top := t.top_unique t'
      have e2 : f.hole = f'.hole := by rw [hh f (by simp), hh' f' (by simp), e1]
      have e3 : f.darts = f'.darts := by
        have t1 := t
        rw [e2] at t1
        obtain ⟨q, ht⟩ := t1.tour
        obtain ⟨q', ht'⟩ := t'.tour
        exact ht.eq_of_start hp ht' (by rw [t1.head, t'.head, e1])
      obtain rfl : f = f' := by
        cases f; cases f'; simp_all
      rw [ih ts' ?_ ?_ (fun g hg => hh g (by simp [hg])) (fun g hg => hh' g (by simp [hg]))]
      · rintro s ⟨h1, h2⟩
        have := hall s h1
        rw [List.flatMap_cons, List.mem_append] at this
        exact this.resolve_left h2
      · rintro s ⟨h1, h2⟩
        have := hall' s h1
        rw [List.flatMap_cons, List.mem_append] at this
        exact this.resolve_left h2

end

/-- "No three links left share their left end" in terms of edges. -/
theorem twoRight_iff {g : Graph} (hpl : Planar (g.links.map Link.seg)) {vis : List Bool} : TwoRight g vis ↔
    ∀ s t u, Open g vis s → Open g vis t → Open g vis u → s.a = t.a → s.a = u.a → s = t ∨ s = u ∨ t = u := by
  constructor
  · rintro h s t u ⟨i, l, i1, i2, rfl⟩ ⟨j, m, j1, j2, rfl⟩ ⟨k, n, k1, k2, rfl⟩ e1 e2
    rcases h i j k l m n i1 j1 k1 i2 j2 k2 e1 e2 with rfl | rfl | rfl
    · left; rw [i1] at j1; rw [Option.some.inj j1]
    · right; left; rw [i1] at k1; rw [Option.some.inj k1]
    · right; right; rw [j1] at k1; rw [Option.some.inj k1]
  · intro h i j k l m n hi hj hk vi vj vk e1 e2
    have key : ∀ (i j : Nat) (l m : Link), g.links[i]? = some l → g.links[j]? = some m → l.edge = m.edge → i = j := by
      intro i j l m hi hj he
      have hn := hpl.nodup
      have hil := (List.getElem?_eq_some_iff.1 hi).1
      have hjl := (List.getElem?_eq_some_iff.1 hj).1
      have hs : l.seg = m.seg := by
        refine hpl.seg_ext (List.mem_map_of_mem (List.mem_of_getElem? hi)) (List.mem_map_of_mem (List.mem_of_getElem? hj)) ?_ ?_
        · exact congrArg (fun s : Edge => s.a) he
        · exact congrArg (fun s : Edge => s.b) he
      refine (List.Nodup.getElem_inj_iff hn (hi := by simpa using hil) (hj := by simpa using hjl)).1 ?_
      rw [List.getElem_map, List.getElem_map, (List.getElem?_eq_some_iff.1 hi).2, (List.getElem?_eq_some_iff.1 hj).2, hs]
    rcases h l.edge m.edge n.edge ⟨i, l, hi, vi, rfl⟩ ⟨j, m, hj, vj, rfl⟩ ⟨k, n, hk, vk, rfl⟩ e1 e2 with h | h | h
    · exact Or.inl (key i j l m hi hj h)
    · exact Or.inr (Or.inl (key i k l n hi hk h))
    · exact Or.inr (Or.inr (key j k m n hj hk h))

/-- The links left at the start are the edges of the result. -/
theorem RunOk.open_iff {rule : FillRule} {r : OverlayRule} {segs : List (Seg CountBool)} {g : Graph} {V : List Pt}
    {vis : List Bool} (h : RunOk rule r segs g V vis) (s : Edge) :
    Open g vis s ↔ ∃ t ∈ segs, keptB rule r segs t = true ∧ t.key = s := by
  constructor
  · rintro ⟨i, l, i1, i2, rfl⟩
    obtain ⟨t, t1, t2, t3, -, t5⟩ := h.unvisited i1 i2
    exact ⟨t, t1, t5, by unfold Link.edge Seg.key; rw [t2, t3]⟩
  · rintro ⟨t, t1, t2, rfl⟩
    obtain ⟨i, l, i1, i2, i3, i4⟩ := h.kept t1 t2
    exact ⟨i, l, i1, i2, by unfold Link.edge Seg.key; rw [i3, i4]⟩

/-- Walks see only usable edges. -/
theorem Tour.mono {cw : Bool} {E E' : List Edge} {U : Edge → Prop} (hE : ∀ s, U s → s ∈ E → s ∈ E')
    (hE' : ∀ s, U s → s ∈ E' → s ∈ E) {q : Pt} {D : List (Dart (Pt × Pt))} (h : Tour cw E U q D) : Tour cw E' U q D :=
  ⟨fun d hd => ⟨hE _ (h.mem d hd).2 (h.mem d hd).1, (h.mem d hd).2⟩, h.nodup, h.first, h.last, h.next,
    fun pre e f post hD s hs hu => h.turns pre e f post hD s (hE' s hu hs) hu⟩

theorem TopTour.mono {cw : Bool} {E E' : List Edge} {U : Edge → Prop} (hE : ∀ s, U s → s ∈ E → s ∈ E')
    (hE' : ∀ s, U s → s ∈ E' → s ∈ E) {T : Edge} {D : List (Dart (Pt × Pt))} (h : TopTour cw E U T D) :
    TopTour cw E' U T D := by
  obtain ⟨⟨q, ht⟩, h1, h2, h3⟩ := h
  exact ⟨⟨q, ht.mono hE hE'⟩, h1, fun f hf hu => h2 f (hE' f hu hf) hu, fun f hf hu => h3 f (hE' f hu hf) hu⟩

theorem Tours.mono {clockwise : Bool} {E E' : List Edge} {U : Edge → Prop} {fs : List Found}
    (h : Tours clockwise E U fs) (hE : ∀ s, U s → s ∈ E → s ∈ E') (hE' : ∀ s, U s → s ∈ E' → s ∈ E) :
    Tours clockwise E' U fs := by
  induction h with
  | nil => exact Tours.nil _
  | cons t _ ih =>
    exact Tours.cons (t.mono hE hE') (ih (fun s hs => hE s hs.1) fun s hs => hE' s hs.1)

theorem Tours.tops {clockwise : Bool} {E : List Edge} {R : Edge → Prop} {fs : List Found}
    (h : Tours clockwise E R fs) : ∀ f ∈ fs, f.top ∈ E ∧ R f.top := by
  induction h with
  | nil => simp
  | @cons U f fs t _ ih =>
    intro f' hf'
    rcases List.mem_cons.1 hf' with rfl | hf'
    · obtain ⟨q, ht⟩ := t.tour
      exact ht.mem _ t.head_mem
    · exact ⟨(ih f' hf').1, (ih f' hf').2.1⟩

open Classical in
/-- The result is determined by its edges. -/
theorem region_eq {rule rule' : FillRule} {r r' : OverlayRule} {segs segs' : List (Seg CountBool)} (h : EdgesOk segs)
    (h' : EdgesOk segs') (hk : ∀ a b, (∃ t ∈ segs, keptB rule r segs t = true ∧ t.a = a ∧ t.b = b) ↔
      ∃ t ∈ segs', keptB rule' r' segs' t = true ∧ t.a = a ∧ t.b = b) (q : QPt) :
    ruleAt rule r (segsWind CountBool.subj segs q, segsWind CountBool.clip segs q) =
    ruleAt rule' r' (segsWind CountBool.subj segs' q, segsWind CountBool.clip segs' q) := by
  have e1 := ray_parity h.planar h.subj h.clip rule r q
  have e2 := ray_parity h'.planar h'.subj h'.clip rule' r' q
  rw [ruleAt_zero, Bool.false_xor, par_eq_countP, List.countP_eq_length_filter, List.filter_filter] at e1 e2
  rw [e1, e2]
  have hn : ∀ (rule : FillRule) (r : OverlayRule) (segs : List (Seg CountBool)), EdgesOk segs →
      ((segs.filter fun f => keptB rule r segs f && decide ((f.a.x:ℚ) ≤ q.x ∧ q.x < f.b.x ∧ ht f q.x < q.y)).map
        Seg.key).Nodup := by
    intro rule r segs h
    refine List.Nodup.map_on ?_ (h.planar.nodup.filter _)
    intro x hx y hy e
    exact h.planar.seg_ext (List.mem_filter.1 hx).1 (List.mem_filter.1 hy).1
      (congrArg (fun s : Edge => s.a) e) (congrArg (fun s : Edge => s.b) e)
  have hmem : ∀ (rule rule' : FillRule) (r r' : OverlayRule) (segs segs' : List (Seg CountBool)),
      (∀ a b, (∃ t ∈ segs, keptB rule r segs t = true ∧ t.a = a ∧ t.b = b) →
      ∃ t ∈ segs', keptB rule' r' segs' t = true ∧ t.a = a ∧ t.b = b) → ∀ x,
      x ∈ (segs.filter fun f => keptB rule r segs f && decide ((f.a.x:ℚ) ≤ q.x ∧ q.x < f.b.x ∧ ht f q.x < q.y)).map
        Seg.key →
      x ∈ (segs'.filter fun f => keptB rule' r' segs' f && decide ((f.a.x:ℚ) ≤ q.x ∧ q.x < f.b.x ∧ ht f q.x < q.y)).map
        Seg.key := by
    intro rule rule' r r' segs segs' hk x hx
    obtain ⟨t, ht, rfl⟩ := List.mem_map.1 hx
    rw [List.mem_filter, Bool.and_eq_true, decide_eq_true_eq] at ht
    obtain ⟨t', k1, k2, k3, k4⟩ := hk t.a t.b ⟨t, ht.1, ht.2.1, rfl, rfl⟩
    refine List.mem_map.2 ⟨t', ?_, by unfold Seg.key; rw [k3, k4]⟩
    rw [List.mem_filter, Bool.and_eq_true, decide_eq_true_eq]
    refine ⟨k1, k2, ?_⟩
    have : IOverlay.ht t' q.x = IOverlay.ht t q.x := by unfold IOverlay.ht; rw [k3, k4]
    rw [k3, k4, this]
    exact ht.2.2
  have hp : ((segs.filter fun f => keptB rule r segs f && decide ((f.a.x:ℚ) ≤ q.x ∧ q.x < f.b.x ∧ ht f q.x < q.y)).map
      Seg.key).Perm ((segs'.filter fun f => keptB rule' r' segs' f &&
        decide ((f.a.x:ℚ) ≤ q.x ∧ q.x < f.b.x ∧ ht f q.x < q.y)).map Seg.key) :=
    (List.perm_ext_iff_of_nodup (hn _ _ _ h) (hn _ _ _ h')).2 fun x =>
      ⟨hmem _ _ _ _ _ _ (fun a b => (hk a b).1) x, hmem _ _ _ _ _ _ (fun a b => (hk a b).2) x⟩
  have := hp.length_eq
  rw [List.length_map, List.length_map] at this
  rw [this]

/-- Equal regions have equal values above a common edge. -/
theorem top_eq {rule rule' : FillRule} {r r' : OverlayRule} {segs segs' : List (Seg CountBool)} (h : EdgesOk segs)
    (h' : EdgesOk segs') (hq : ∀ q, ruleAt rule r (segsWind CountBool.subj segs q, segsWind CountBool.clip segs q) =
      ruleAt rule' r' (segsWind CountBool.subj segs' q, segsWind CountBool.clip segs' q)) {t t' : Seg CountBool}
    (ht : t ∈ segs) (ht' : t' ∈ segs') (ha : t'.a = t.a) (hb : t'.b = t.b) :
    ruleAt rule r (botP segs t + cpair t) = ruleAt rule' r' (botP segs' t' + cpair t') := by
  have hm : inSeg ⟨((t.a.x:ℚ) + t.b.x) / 2, ((t.a.y:ℚ) + t.b.y) / 2⟩ t.a t.b :=
    ⟨1/2, by norm_num, by norm_num, by simp; ring, by simp; ring⟩
  have hm' := hm
  rw [← ha, ← hb] at hm'
  rw [ha, hb] at hm'
  obtain ⟨e1, p1, f1⟩ := h.planar.near h.subj ht hm
  obtain ⟨e2, p2, f2⟩ := h.planar.near h.clip ht hm
  obtain ⟨e3, p3, f3⟩ := h'.planar.near h'.subj ht' (by rw [ha, hb]; exact hm)
  obtain ⟨e4, p4, f4⟩ := h'.planar.near h'.clip ht' (by rw [ha, hb]; exact hm)
  rw [ha, hb] at f3 f4
  obtain ⟨δ, d0, d1, d2, d3, d4⟩ : ∃ δ : ℚ, 0 < δ ∧ δ < e1 ∧ δ < e2 ∧ δ < e3 ∧ δ < e4 := by
    refine ⟨min (min e1 e2) (min e3 e4) / 2, by positivity, ?_, ?_, ?_, ?_⟩
    all_goals
      have hpos : 0 < min (min e1 e2) (min e3 e4) := by positivity
      have l1 := min_le_left (min e1 e2) (min e3 e4)
      have l2 := min_le_right (min e1 e2) (min e3 e4)
      have l3 := min_le_left e1 e2
      have l4 := min_le_right e1 e2
      have l5 := min_le_left e3 e4
      have l6 := min_le_right e3 e4
      linarith
  have key := hq (leftOf t.a t.b ⟨((t.a.x:ℚ) + t.b.x) / 2, ((t.a.y:ℚ) + t.b.y) / 2⟩ δ)
  rw [(f1 δ d0 d1).2, (f2 δ d0 d2).2, (f3 δ d0 d3).2, (f4 δ d0 d4).2] at key
  exact key

open Classical in
/-- Two extractions whose results have the same edges collect the same contours, holes and anchors. -/
theorem RunOk.same {rule rule' : FillRule} {r r' : OverlayRule} {segs segs' : List (Seg CountBool)} {g g' : Graph}
    {V V' : List Pt} {vis vis' : List Bool} (h : RunOk rule r segs g V vis) (h' : RunOk rule' r' segs' g' V' vis')
    (hk : ∀ a b, (∃ t ∈ segs, keptB rule r segs t = true ∧ t.a = a ∧ t.b = b) ↔
      ∃ t ∈ segs', keptB rule' r' segs' t = true ∧ t.a = a ∧ t.b = b) (clockwise : Bool)
    {clean : List Pt → List Pt × Bool} (hc : CleanOk clean) {minArea : Nat} (hm : minArea = 0 ∨ TwoRight g vis)
    {e e' : Extracted} (he : extractContours g r clockwise clean minArea vis = some e)
    (he' : extractContours g' r' clockwise clean minArea vis' = some e') : e = e' := by
  have hkey : ∀ {t : Seg CountBool} {s : Edge}, t.key = s → t.a = s.a ∧ t.b = s.b := by
    rintro t s rfl; exact ⟨rfl, rfl⟩
  have hRR : Open g vis = Open g' vis' := by
    funext s
    rw [propext (h.open_iff s), propext (h'.open_iff s)]
    refine propext ⟨?_, ?_⟩
    · rintro ⟨t, t1, t2, rfl⟩
      obtain ⟨u, u1, u2, u3, u4⟩ := (hk t.a t.b).1 ⟨t, t1, t2, rfl, rfl⟩
      exact ⟨u, u1, u2, by unfold Seg.key; rw [u3, u4]⟩
    · rintro ⟨t, t1, t2, rfl⟩
      obtain ⟨u, u1, u2, u3, u4⟩ := (hk t.a t.b).2 ⟨t, t1, t2, rfl, rfl⟩
      exact ⟨u, u1, u2, by unfold Seg.key; rw [u3, u4]⟩
  have hm' : minArea = 0 ∨ TwoRight g' vis' := by
    rw [twoRight_iff h.planar, hRR, ← twoRight_iff h'.planar] at hm
    exact hm
  obtain ⟨fs, Φ, F, hR, -, -, -, -, -, hpush⟩ := h.tours_all clockwise hc hm he
  obtain ⟨fs', Φ', F', hR', -, -, -, -, -, hpush'⟩ := h'.tours_all clockwise hc hm' he'
  have hreg := region_eq h.edges h'.edges hk
  have hE : ∀ s, Open g vis s → s ∈ segs.map Seg.key := by
    intro s hs
    obtain ⟨t, t1, -, rfl⟩ := (h.open_iff s).1 hs
    exact List.mem_map_of_mem t1
  have hE' : ∀ s, Open g' vis' s → s ∈ segs'.map Seg.key := by
    intro s hs
    obtain ⟨t, t1, -, rfl⟩ := (h'.open_iff s).1 hs
    exact List.mem_map_of_mem t1
  have hT' : Tours clockwise (segs.map Seg.key) (Open g vis) fs' := by
    refine (hRR ▸ hR'.tours).mono (fun s hs _ => hE s hs) fun s hs _ => hE' s (by rw [← hRR]; exact hs)
  have hfs : fs = fs' := by
    refine hR.tours.unique hR.planar hT' hR.all (by rw [hRR]; exact hR'.all)
      (fun s => decide (F (bvec Φ (segs.map Seg.key) s + cvec Φ s) = 1)) ?_ ?_
    · intro f hf
      rw [hR.hole f hf]
      cases f.hole <;> simp
    · intro f hf
      obtain ⟨t, t1, -, e1⟩ := (h.open_iff f.top).1 (hT'.tops f hf).2
      obtain ⟨t', t1', -, e1'⟩ := (h'.open_iff f.top).1 (hR'.tours.tops f hf).2
      have h1 := hR'.hole f hf
      rw [← e1', (hR'.bot t' t1').2] at h1
      rw [← e1, (hR.bot t t1).2, top_eq h.edges h'.edges hreg t1 t1'
        ((hkey e1').1.trans (hkey e1).1.symm) ((hkey e1').2.trans (hkey e1).2.symm)]
      cases hh : f.hole <;> cases hr : ruleAt rule' r' (botP segs' t' + cpair t') <;> simp [hh, hr] at h1 ⊢
  subst hfs
  rw [hpush] at hpush'
  exact Option.some.inj hpush'

end IOverlay
