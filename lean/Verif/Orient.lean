/-
Orientation and nesting of the contours found by successive walks. C41, C42.
-/
import Verif.Hug

namespace IOverlay
variable {C K : Type}

/-! ### facts about closed flows -/

section
variable {segs : List (Seg C)} (hp : Planar segs)
include hp

/-- Above the topmost usable edge at the leftmost vertex a flow through usable edges is zero. -/
theorem Planar.top_zero {φ : C → Int} (hc : Closed φ segs) {U : Seg C → Prop}
    (hU : ∀ h ∈ segs, ¬ U h → φ h.c = 0) {T : Seg C} (hT : T ∈ segs)
    (hmin : ∀ f ∈ segs, U f → ¬ f.a < T.a)
    (htop : ∀ f ∈ segs, U f → f.a = T.a → f ≠ T → 0 < area2 T.a T.b f.b) :
    botW φ segs T + φ T.c = 0 := by
  have hTl := hp.lt T hT
  have hz := hp.outw_closed hc T.a
  rw [← wsum_single φ hp.nodup hT]
  unfold botW
  rw [← wsum_add]
  refine Eq.trans ?_ hz
  unfold wsum
  congr 1
  refine List.map_congr_left fun f hf => ?_
  beta_reduce
  by_cases hu : U f
  · congr 1
    have hm := hmin f hf hu
    have hfl := hp.lt f hf
    have hb : ¬ f.b = T.a := fun e => hm (by rw [← e]; exact hfl)
    unfold outw
    rw [ind_false hb]
    by_cases ha : f.a = T.a
    · rw [ind_true ha]
      by_cases hfT : f = T
      · subst hfT
        rw [ind_true rfl, ind_false]
        · rfl
        · rintro ⟨sf, h | h⟩
          · rw [ht_a] at h; exact lt_irrefl _ h
          · have e : area2 f.a f.b f.b = 0 := by unfold area2; ring
            omega
      · have h := htop f hf hu ha hfT
        rw [ind_false hfT, ind_true ⟨fanLt_spans ha hfl hTl h, Or.inr ⟨ha, h⟩⟩]; rfl
    · rw [ind_false ha, ind_false (P := f = T) (fun e => ha (by rw [e])), ind_false]
      · rfl
      · rintro ⟨⟨s1, s2⟩, h | h⟩
        · rw [Pt.lt_def] at hm
          push Not at hm
          have hx : f.a.x = T.a.x := by omega
          rw [← hx, ht_a] at h
          have h3 : f.a.y < T.a.y := by exact_mod_cast h
          have := hm.2 hx
          omega
        · exact ha h.1
  · rw [hU f hf hu]; ring

/-- The winding number of a closed flow is zero or the value above some edge with flow. -/
theorem Planar.wind_cases {φ : C → Int} (hc : Closed φ segs) (q : QPt) :
    segsWind φ segs q = 0 ∨ ∃ s ∈ segs, φ s.c ≠ 0 ∧ segsWind φ segs q = botW φ segs s + φ s.c := by
  classical
  have f1 : (⌊q.x⌋:ℚ) ≤ q.x := Int.floor_le _
  have f2 : q.x ≤ ⌊q.x⌋ + 1 := (Int.lt_floor_add_one _).le
  have hw : segsWind φ segs q = wsum φ (fun f => ind (f.spans ⌊q.x⌋ ∧ ht f q.x < q.y)) segs := by
    rw [segsWind_eq_wsum φ hp.lt]
    refine wsum_congr φ fun f _ => ind_congr ?_
    rw [← and_assoc, spans_floor]
  rw [hw]
  by_cases hne : (segs.filter fun f => decide ((f.spans ⌊q.x⌋ ∧ ht f q.x < q.y) ∧ φ f.c ≠ 0)) = []
  · left
    unfold wsum
    apply List.sum_eq_zero
    intro x hx
    obtain ⟨f, hf, rfl⟩ := List.mem_map.1 hx
    beta_reduce
    rw [List.filter_eq_nil_iff] at hne
    have := hne f hf
    rw [decide_eq_true_eq] at this
    by_cases c : f.spans ⌊q.x⌋ ∧ ht f q.x < q.y
    · have : φ f.c = 0 := by
        by_contra h; exact this ⟨c, h⟩
      rw [this]; ring
    · rw [ind_false c]; ring
  · right
    obtain ⟨s, hs, hmax⟩ := exists_max _ hne (fun f => ht f (mid ⌊q.x⌋))
    rw [List.mem_filter, decide_eq_true_eq] at hs
    obtain ⟨hs, ⟨ss, hlow⟩, h0⟩ := hs
    refine ⟨s, hs, h0, ?_⟩
    rw [hp.botW_eq_lowSum φ hs ss.x, ← hp.lowSum_const hc hs _ ss, ← wsum_single φ hp.nodup hs]
    unfold lowSum
    rw [← wsum_add]
    unfold wsum
    congr 1
    refine List.map_congr_left fun f hf => ?_
    beta_reduce
    by_cases hf0 : φ f.c = 0
    · rw [hf0]; ring
    · congr 1
      by_cases hfs : f = s
      · subst hfs
        rw [ind_true rfl, ind_true ⟨ss, hlow⟩, ind_false (fun h => lt_irrefl _ h.2)]; rfl
      · rw [ind_false hfs, add_zero]
        refine ind_congr ?_
        constructor
        · rintro ⟨sf, h⟩
          refine ⟨sf, ?_⟩
          have := hmax f (List.mem_filter.2 ⟨hf, by rw [decide_eq_true_eq]; exact ⟨⟨sf, h⟩, hf0⟩⟩)
          exact lt_of_le_of_ne this (hp.mid_ne hf hs hfs sf ss)
        · rintro ⟨sf, h⟩
          exact ⟨sf, lt_of_le_of_lt (hp.of_mid hf hs sf ss f1 f2 h) hlow⟩

open Classical in
/-- The sum of the jumps below an edge. -/
theorem Planar.jump_bot (Φ : K → C → Int) (hc : ∀ k, Closed (Φ k) segs) (f : (K → Int) → Int) {s : Seg C}
    (hs : s ∈ segs) :
    (segs.map fun h => jump Φ f segs h * ind (h.spans s.a.x ∧
      (ht h s.a.x < s.a.y ∨ (h.a = s.a ∧ 0 < area2 s.a s.b h.b)))).sum = f (bvec Φ segs s) - f 0 := by
  have hsl := hp.lt s hs
  have h := column_sum Φ f hp hc s.a.x
    (fun h => h.spans s.a.x ∧ (ht h s.a.x < s.a.y ∨ (h.a = s.a ∧ 0 < area2 s.a s.b h.b))) (fun _ => False)
    (fun _ _ h => h.1)
    (by
      rintro t htm ⟨st, hlow⟩ f hf
      constructor
      · rintro ⟨sf, h⟩
        refine Or.inr ⟨⟨sf, ?_⟩, h⟩
        rcases hlow with hlow | ⟨h1, h2⟩
        · exact Or.inl (lt_of_le_of_lt (hp.of_mid hf htm sf st (x := s.a.x) (by simp) (by linarith) h) hlow)
        · have sf' : f.spans t.a.x := by rw [h1]; exact sf
          have h' : ht f (mid t.a.x) < ht t (mid t.a.x) := by rw [h1]; exact h
          rcases (hp.low_iff hf htm st.x sf').1 h' with h3 | ⟨h3, h4⟩
          · rw [h1] at h3; exact Or.inl h3
          · refine Or.inr ⟨h3.trans h1, ?_⟩
            have l1 := hp.lt f hf
            have l2 := hp.lt t htm
            rw [h3, h1] at l1
            rw [h1] at l2 h4
            exact fan_trans l1 l2 hsl h4 h2
      · rintro (h | ⟨h1, h2⟩)
        · exact h.elim
        · exact ⟨h1.1, h2⟩)
    (fun _ _ h => h.elim)
  have e0 : vsum Φ (fun _ => False) segs = 0 := by rw [vsum_eq]; simp
  rw [e0, zero_add, sum_ite] at h
  exact h

end

/-! ### flows on edges identified by their ends -/

/-- An edge identified by its ends. -/
abbrev Edge := Seg (Pt × Pt)

/-- The edge itself is its count. -/
def Keyed (E : List Edge) : Prop := ∀ s ∈ E, s.c = (s.a, s.b)

/-- A function of the edges as a function of the counts. -/
def onKeys (j : Edge → Int) : Pt × Pt → Int := fun c => j ⟨c.1, c.2, c⟩

theorem onKeys_eq {E : List Edge} (hk : Keyed E) (j : Edge → Int) {s : Edge} (hs : s ∈ E) : onKeys j s.c = j s := by
  have := hk s hs
  unfold onKeys
  rw [this]
  obtain ⟨a, b, c⟩ := s
  simp only at this ⊢
  rw [this]

theorem wsum_onKeys {E : List Edge} (hk : Keyed E) (j w : Edge → Int) :
    wsum (onKeys j) w E = (E.map fun s => j s * w s).sum := by
  unfold wsum
  congr 1
  refine List.map_congr_left fun s hs => ?_
  rw [onKeys_eq hk j hs]

/-- The flow of a walk. -/
noncomputable def trav (D : List (Dart (Pt × Pt))) : Edge → Int := fun s => (D.map fun d => d.sign * ind (s = d.s)).sum

section
variable {E : List Edge} (hp : Planar E) (hk : Keyed E)
include hp hk

theorem wsum_trav (w : Edge → Int) (D : List (Dart (Pt × Pt))) (hD : ∀ d ∈ D, d.s ∈ E) :
    wsum (onKeys (trav D)) w E = (D.map fun d => d.sign * w d.s).sum := by
  rw [wsum_onKeys hk]
  induction D with
  | nil =>
    unfold trav
    simp
  | cons d D ih =>
    have h1 := ih fun d hd => hD d (List.mem_cons_of_mem _ hd)
    rw [List.map_cons, List.sum_cons, ← h1]
    have e : ∀ s, trav (d :: D) s * w s = d.sign * (1 * (w s * ind (s = d.s))) + trav D s * w s := by
      intro s; unfold trav; rw [List.map_cons, List.sum_cons]; ring
    simp only [e]
    rw [List.sum_map_add]
    congr 1
    have h2 := wsum_single (fun _ => 1) hp.nodup (hD d (by simp))
    rw [List.sum_map_mul_left]
    congr 1
    have e2 : ∀ s ∈ E, (1:Int) * (w s * ind (s = d.s)) = w d.s * ((fun _ => 1) s.c * ind (s = d.s)) := by
      intro s _
      by_cases c : s = d.s
      · rw [c]; ring
      · rw [ind_false c]; ring
    rw [List.map_congr_left e2, List.sum_map_mul_left]
    change w d.s * wsum (fun _ => 1) (fun f => ind (f = d.s)) E = _
    rw [h2, mul_one]

omit hp hk in
theorem trav_zero {D : List (Dart (Pt × Pt))} {s : Edge} (h : s ∉ D.map (·.s)) : trav D s = 0 := by
  unfold trav
  apply List.sum_eq_zero
  intro x hx
  obtain ⟨d, hd, rfl⟩ := List.mem_map.1 hx
  rw [ind_false]
  · ring
  · rintro rfl; exact h (List.mem_map_of_mem hd)

omit hp hk in
theorem trav_sign {D : List (Dart (Pt × Pt))} (hn : (D.map (·.s)).Nodup) {d : Dart (Pt × Pt)} (hd : d ∈ D) :
    trav D d.s = d.sign := by
  induction D with
  | nil => simp at hd
  | cons x D ih =>
    rw [List.map_cons, List.nodup_cons] at hn
    have e : trav (x :: D) d.s = x.sign * ind (d.s = x.s) + trav D d.s := by
      unfold trav; rw [List.map_cons, List.sum_cons]
    rw [e]
    rcases List.mem_cons.1 hd with rfl | hd
    · rw [ind_true rfl, trav_zero hn.1]; ring
    · have : d.s ≠ x.s := by
        intro h
        exact hn.1 (by rw [← h]; exact List.mem_map_of_mem hd)
      rw [ind_false this, ih hn.2 hd]; ring

omit hp hk in
theorem Dart.sign_sq (d : Dart C) : d.sign * d.sign = 1 := by
  unfold Dart.sign; cases d.fwd <;> rfl

end

/-! ### one walk -/

/-- A walk that starts with the topmost usable edge at the leftmost vertex, with the outside on its outer
side. -/
structure TopTour (cw : Bool) (E : List Edge) (U : Edge → Prop) (T : Edge) (D : List (Dart (Pt × Pt))) : Prop where
  tour : ∃ q, Tour cw E U q D
  head : D.head? = some ⟨T, !cw⟩
  min : ∀ f ∈ E, U f → ¬ f.a < T.a
  top : ∀ f ∈ E, U f → f.a = T.a → f ≠ T → 0 < area2 T.a T.b f.b

theorem steps_induct {α : Type} {P : α → Prop} : ∀ (D : List α), (∀ d ∈ D.head?, P d) →
    (∀ pre e f post, D = pre ++ e :: f :: post → (∀ d ∈ pre, P d) → P e → P f) → ∀ d ∈ D, P d := by
  intro D h0 hs
  have main : ∀ n, ∀ pre post, D = pre ++ post → pre.length = n → ∀ d ∈ pre, P d := by
    intro n
    induction n with
    | zero =>
      intro pre post _ hl d hd
      rw [List.eq_nil_of_length_eq_zero hl] at hd
      simp at hd
    | succ n ih =>
      intro pre post hD hl d hd
      obtain ⟨l, x, rfl⟩ : ∃ l x, pre = l ++ [x] := ⟨pre.dropLast, pre.getLast (by rintro rfl; simp at hl),
        (List.dropLast_append_getLast _).symm⟩
      have hl' : l.length = n := by simp at hl; exact hl
      have hprev := ih l (x :: post) (by rw [hD]; simp) hl'
      rcases List.mem_append.1 hd with h | h
      · exact hprev d h
      · rw [List.mem_singleton] at h
        subst h
        rcases List.eq_nil_or_concat l with rfl | ⟨l', y, rfl⟩
        · exact h0 d (by rw [hD]; rfl)
        · rw [List.concat_eq_append] at hprev hD
          exact hs l' y d post (by rw [hD]; simp) (fun z hz => hprev z (by simp [hz])) (hprev y (by simp))
  intro d hd
  exact main D.length D [] (by simp) rfl d hd

section
variable {E : List Edge} (hp : Planar E) (hk : Keyed E)
include hp hk

theorem Tour.dart_sum {cw : Bool} {U : Edge → Prop} {q : Pt} {D : List (Dart (Pt × Pt))} (hT : Tour cw E U q D)
    (f : Pt → Int) : (D.map fun d => d.sign * (f d.s.a - f d.s.b)).sum = 0 := by
  have e : ∀ d ∈ D, d.sign * (f d.s.a - f d.s.b) = (f d.start - f q) - (f d.finish - f q) := by
    intro d _
    unfold Dart.sign Dart.start Dart.finish
    cases d.fwd <;> simp
  rw [List.map_congr_left e]
  refine telescope (fun d : Dart (Pt × Pt) => f d.start - f q) (fun d => f d.finish - f q) D ?_ ?_ ?_
  · intro l1 d d' l2 h
    rw [(hT.next l1 d d' l2 h).1]
  · intro d hd; rw [hT.first d hd]; ring
  · intro d hd; rw [hT.last d hd]; ring

theorem Tour.trav_closed {cw : Bool} {U : Edge → Prop} {q : Pt} {D : List (Dart (Pt × Pt))} (hT : Tour cw E U q D) :
    Closed (onKeys (trav D)) E := by
  intro f
  have h := wsum_trav hp hk (fun s => f s.a - f s.b) D (fun d hd => (hT.mem d hd).1)
  change wsum (onKeys (trav D)) (fun s => f s.a - f s.b) E = 0
  rw [h, hT.dart_sum hp hk]

omit hp in
theorem Tour.trav_supp {cw : Bool} {U : Edge → Prop} {q : Pt} {D : List (Dart (Pt × Pt))} (hT : Tour cw E U q D) :
    ∀ h ∈ E, ¬ U h → onKeys (trav D) h.c = 0 := by
  intro h hh hu
  rw [onKeys_eq hk _ hh]
  refine trav_zero ?_
  intro hm
  obtain ⟨d, hd, rfl⟩ := List.mem_map.1 hm
  exact hu (hT.mem d hd).2

omit hp in
theorem Tour.flux_trav {cw : Bool} {U : Edge → Prop} {q : Pt} {D : List (Dart (Pt × Pt))} (hT : Tour cw E U q D)
    {d : Dart (Pt × Pt)} (hd : d ∈ D) : flux (onKeys (trav D)) d = 1 := by
  unfold flux
  rw [onKeys_eq hk _ (hT.mem d hd).1, trav_sign hT.nodup hd, d.sign_sq]

variable {cw : Bool} {U : Edge → Prop} {T : Edge} {D : List (Dart (Pt × Pt))} (hT : TopTour cw E U T D)
include hT

omit hp hk in
theorem TopTour.head_mem : (⟨T, !cw⟩ : Dart (Pt × Pt)) ∈ D := by
  have := hT.head
  rcases D with _ | ⟨x, D⟩
  · simp at this
  · simp at this; rw [this]; simp

omit hk in
/-- With constant flow through the walk the inner value is the value below the first edge, all along. -/
theorem TopTour.hug_const {φ : Pt × Pt → Int} (hc : Closed φ E) (hU : ∀ h ∈ E, ¬ U h → φ h.c = 0) {m : Int}
    (hm : ∀ d ∈ D, flux φ d = m) : ∀ d ∈ D, hug cw φ E d = - φ T.c := by
  obtain ⟨q, ht⟩ := hT.tour
  refine steps_induct D ?_ ?_
  · intro d hd
    rw [hT.head] at hd
    obtain rfl := Option.some.inj hd
    have h0 : botW φ E T + φ T.c = 0 := hp.top_zero hc hU (ht.mem _ hT.head_mem).1 hT.min hT.top
    unfold hug
    cases cw <;> simp <;> omega
  · intro pre e f post hD _ he
    rw [← ht.hug_next hp hc hU hD (fun d hd => hm d (by rw [hD]; simp [hd])), he]

/-- The walk winds once around what is on its inner side, and not around what is on its outer side. -/
theorem TopTour.hug_trav : ∀ d ∈ D, hug cw (onKeys (trav D)) E d = side cw ∧ far cw (onKeys (trav D)) E d = 0 := by
  obtain ⟨q, ht⟩ := hT.tour
  intro d hd
  have h := hT.hug_const hp (ht.trav_closed hp hk) (ht.trav_supp hk) (fun d hd => ht.flux_trav hk hd) d hd
  have hT' : onKeys (trav D) T.c = - side cw := by
    rw [onKeys_eq hk _ (ht.mem _ hT.head_mem).1]
    have := trav_sign ht.nodup hT.head_mem
    rw [this]
    unfold Dart.sign side; cases cw <;> rfl
  rw [hT', neg_neg] at h
  refine ⟨h, ?_⟩
  have h2 := hug_far cw (onKeys (trav D)) E d
  rw [ht.flux_trav hk hd, h] at h2
  omega

/-- The winding number of the walk around any point is 0 or the inner value. -/
theorem TopTour.wind (q : QPt) : segsWind (onKeys (trav D)) E q = 0 ∨ segsWind (onKeys (trav D)) E q = side cw := by
  obtain ⟨q', ht⟩ := hT.tour
  rcases hp.wind_cases (ht.trav_closed hp hk) q with h | ⟨s, hs, h0, h⟩
  · exact Or.inl h
  · rw [onKeys_eq hk _ hs] at h0
    have hm : s ∈ D.map (·.s) := by
      by_contra hc; exact h0 (trav_zero hc)
    obtain ⟨d, hd, rfl⟩ := List.mem_map.1 hm
    obtain ⟨h1, h2⟩ := hT.hug_trav hp hk d hd
    rw [h]
    unfold hug at h1
    unfold far at h2
    by_cases c : d.fwd = cw
    · rw [if_pos c] at h1; exact Or.inr h1
    · rw [if_neg c] at h2; exact Or.inl h2

end

/-! ### successive walks -/

/-- Flows through the usable edges do not wind around the edges used before. -/
def Quiet (E : List Edge) (R U : Edge → Prop) : Prop :=
  ∀ φ : Pt × Pt → Int, Closed φ E → (∀ h ∈ E, ¬ U h → φ h.c = 0) → ∀ s ∈ E, R s → ¬ U s → botW φ E s = 0

section
variable {E : List Edge} (hp : Planar E) (hk : Keyed E) {R : Edge → Prop}

theorem quiet_start : Quiet E R R := fun _ _ _ _ _ h1 h2 => absurd h1 h2

variable {cw : Bool} {U : Edge → Prop} {T : Edge} {D : List (Dart (Pt × Pt))} (hT : TopTour cw E U T D)
include hp hk hT

omit hk in
theorem TopTour.quiet (hQ : Quiet E R U) : Quiet E R fun s => U s ∧ s ∉ D.map (·.s) := by
  intro φ hc hs s hsE hR hU
  have hU' : ∀ h ∈ E, ¬ U h → φ h.c = 0 := fun h hh hn => hs h hh fun h' => hn h'.1
  by_cases hu : U s
  · have hm : s ∈ D.map (·.s) := by
      by_contra hn; exact hU ⟨hu, hn⟩
    obtain ⟨d, hd, rfl⟩ := List.mem_map.1 hm
    have z : ∀ d ∈ D, φ d.s.c = 0 := fun d hd => by
      obtain ⟨q, ht⟩ := hT.tour
      exact hs d.s (ht.mem d hd).1 fun h => h.2 (List.mem_map_of_mem hd)
    have h := hT.hug_const hp hc hU' (m := 0) (fun d hd => by unfold flux; rw [z d hd]; ring) d hd
    rw [z _ hT.head_mem] at h
    unfold hug at h
    rw [z d hd] at h
    simpa using h
  · exact hQ φ hc hU' s hsE hR hu

omit hp hk hT in
theorem onKeys_flow {E : List Edge} (hk : Keyed E) {Ψ : K → Pt × Pt → Int} {G : (K → Int) → Int} (q : QPt) :
    segsWind (onKeys (jump Ψ G E)) E q = segsWind id (jumps Ψ G E) q := by
  unfold segsWind jumps
  rw [List.map_map]
  congr 1
  refine List.map_congr_left fun s hs => ?_
  rw [onKeys_eq hk _ hs]; rfl

omit hp hk hT in
theorem onKeys_closed {E : List Edge} (hp : Planar E) (hk : Keyed E) {Ψ : K → Pt × Pt → Int}
    (hc : ∀ k, Closed (Ψ k) E) (G : (K → Int) → Int) : Closed (onKeys (jump Ψ G E)) E := by
  intro f
  have := jumps_closed Ψ G hp hc f
  rw [← this]
  unfold segSum jumps
  rw [List.map_map]
  congr 1
  refine List.map_congr_left fun s hs => ?_
  rw [onKeys_eq hk _ hs]; rfl

omit hp hk hT in
theorem onKeys_bot {E : List Edge} (hp : Planar E) (hk : Keyed E) {Ψ : K → Pt × Pt → Int}
    (hc : ∀ k, Closed (Ψ k) E) (G : (K → Int) → Int) {s : Edge} (hs : s ∈ E) :
    botW (onKeys (jump Ψ G E)) E s = G (bvec Ψ E s) - G 0 := by
  have := hp.jump_bot Ψ hc G hs
  rw [← this]
  unfold botW
  rw [wsum_onKeys hk]

/-- Vector of winding numbers on the inner side. -/
noncomputable def hugV (cw : Bool) (Φ : K → C → Int) (E : List (Seg C)) (d : Dart C) : K → Int :=
  fun k => hug cw (Φ k) E d

/-- Vector of winding numbers on the outer side. -/
noncomputable def farV (cw : Bool) (Φ : K → C → Int) (E : List (Seg C)) (d : Dart C) : K → Int :=
  fun k => far cw (Φ k) E d

/-- A function of the winding numbers that changes only across edges to be used is constant along the inner
side of a walk. -/
theorem TopTour.inner_const (hQ : Quiet E R U) (Φ : K → Pt × Pt → Int) (hc : ∀ k, Closed (Φ k) E)
    (F : (K → Int) → Int) (hF : ∀ s ∈ E, ¬ R s → F (bvec Φ E s + cvec Φ s) = F (bvec Φ E s)) :
    ∀ d ∈ D, F (hugV cw Φ E d) = F (bvec Φ E T) := by
  obtain ⟨q, ht⟩ := hT.tour
  have hχ := ht.trav_closed hp hk
  have hχs := ht.trav_supp hk
  generalize hΨ : (fun k : Option K => match k with | none => onKeys (trav D) | some k => Φ k) = Ψ
  have hΨn : Ψ none = onKeys (trav D) := by rw [← hΨ]
  have hΨs : ∀ k, Ψ (some k) = Φ k := by intro k; rw [← hΨ]
  have hcΨ : ∀ k, Closed (Ψ k) E := by
    intro k
    cases k with
    | none => rw [hΨn]; exact hχ
    | some k => rw [hΨs]; exact hc k
  generalize hG : (fun v : Option K → Int => v none * F fun k => v (some k)) = G
  have hψc := onKeys_closed hp hk hcΨ G
  have hψb : ∀ s ∈ E, botW (onKeys (jump Ψ G E)) E s = botW (onKeys (trav D)) E s * F (bvec Φ E s) := by
    intro s hs
    rw [onKeys_bot hp hk hcΨ G hs, ← hG]
    simp only [bvec, hΨn, hΨs, Pi.zero_apply, zero_mul, sub_zero]
    rfl
  have hψ : ∀ s ∈ E, onKeys (jump Ψ G E) s.c = (botW (onKeys (trav D)) E s + onKeys (trav D) s.c) *
      F (bvec Φ E s + cvec Φ s) - botW (onKeys (trav D)) E s * F (bvec Φ E s) := by
    intro s hs
    rw [onKeys_eq hk _ hs, ← hG]
    simp only [jump, bvec, cvec, hΨn, hΨs, Pi.add_apply]
    rfl
  have hψs : ∀ h ∈ E, ¬ U h → onKeys (jump Ψ G E) h.c = 0 := by
    intro h hh hu
    rw [hψ h hh, hχs h hh hu, add_zero]
    by_cases hR : R h
    · rw [hQ _ hχ hχs h hh hR hu]; ring
    · rw [hF h hh hR]; ring
  have sides : ∀ d ∈ D, hug cw (onKeys (jump Ψ G E)) E d = side cw * F (hugV cw Φ E d) ∧
      flux (onKeys (jump Ψ G E)) d = F (hugV cw Φ E d) := by
    intro d hd
    have hs := (ht.mem d hd).1
    obtain ⟨h1, h2⟩ := hT.hug_trav hp hk d hd
    have hf := hug_far cw (onKeys (jump Ψ G E)) E d
    have e1 : hug cw (onKeys (jump Ψ G E)) E d = side cw * F (hugV cw Φ E d) := by
      rw [← h1]
      have : hugV cw Φ E d = if d.fwd = cw then bvec Φ E d.s + cvec Φ d.s else bvec Φ E d.s := by
        funext k
        unfold hugV hug
        split <;> simp [bvec, cvec]
      unfold hug
      rw [hψb _ hs, this]
      by_cases c : d.fwd = cw
      · rw [if_pos c, if_pos c, if_pos c, hψ _ hs]; ring
      · rw [if_neg c, if_neg c, if_neg c]; ring
    have e2 : far cw (onKeys (jump Ψ G E)) E d = 0 := by
      have : farV cw Φ E d = if d.fwd = cw then bvec Φ E d.s else bvec Φ E d.s + cvec Φ d.s := by
        funext k
        unfold farV far
        split <;> simp [bvec, cvec]
      have h3 : far cw (onKeys (jump Ψ G E)) E d = far cw (onKeys (trav D)) E d * F (farV cw Φ E d) := by
        rw [this]
        unfold far
        rw [hψb _ hs]
        by_cases c : d.fwd = cw
        · rw [if_pos c, if_pos c, if_pos c]; ring
        · rw [if_neg c, if_neg c, if_neg c, hψ _ hs]; ring
      rw [h3, h2, zero_mul]
    refine ⟨e1, ?_⟩
    rw [e1, e2] at hf
    have hs1 : side cw * side cw = 1 := by unfold side; cases cw <;> rfl
    have : side cw * (side cw * F (hugV cw Φ E d)) = side cw * (side cw * flux (onKeys (jump Ψ G E)) d) := by
      rw [← hf]; ring
    rw [← mul_assoc, ← mul_assoc, hs1] at this
    linarith
  refine steps_induct D ?_ ?_
  · intro d hd
    rw [hT.head] at hd
    obtain rfl := Option.some.inj hd
    congr 1
    funext k
    unfold hugV hug bvec
    cases cw <;> simp
  · intro pre e f post hD hpre he
    have hm : ∀ d ∈ pre, flux (onKeys (jump Ψ G E)) d = F (bvec Φ E T) := by
      intro d hd
      rw [(sides d (by rw [hD]; simp [hd])).2, hpre d hd]
    have := ht.hug_next hp hψc hψs hD hm
    rw [(sides e (by rw [hD]; simp)).1, (sides f (by rw [hD]; simp)).1] at this
    rw [← he]
    unfold side at this
    cases cw <;> simp at this <;> exact this.symm

end

end IOverlay
