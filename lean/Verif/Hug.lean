/-
Following the edges of a noded edge list with the rule "first unused edge in rotation order": the winding
number of a closed flow on the inner side of the walk does not change from edge to edge. C41.
-/
import Verif.Star

namespace IOverlay
variable {C : Type}

/-- Angle swept when turning around `p` from the edge `e` to the edge `h`. -/
noncomputable def sw (cw : Bool) (p : Pt) (e h : Seg C) : ℝ :=
  if cw then angleStep (h.ang p) (e.ang p) else angleStep (e.ang p) (h.ang p)

theorem wsum_mul (φ : C → Int) (k : Int) (w : Seg C → Int) (l : List (Seg C)) :
    wsum φ (fun h => k * w h) l = k * wsum φ w l := by
  induction l with
  | nil => simp
  | cons s l ih => rw [wsum_cons, wsum_cons, ih]; ring

theorem wsum_sub (φ : C → Int) {w : Seg C → Int} {l l' : List (Seg C)} (hd : l.Nodup) (hd' : l'.Nodup)
    (hs : ∀ s ∈ l', s ∈ l) (hz : ∀ s ∈ l, s ∉ l' → φ s.c * w s = 0) : wsum φ w l = wsum φ w l' := by
  classical
  unfold wsum
  rw [← List.sum_toFinset _ hd, ← List.sum_toFinset _ hd']
  symm
  refine Finset.sum_subset ?_ ?_
  · intro s h
    rw [List.mem_toFinset] at h ⊢
    exact hs s h
  · intro s h h'
    rw [List.mem_toFinset] at h h'
    exact hz s h h'

theorem wedge_ccw {E F H : ℝ} (bh : 0 < H ∧ H ≤ 2 * Real.pi) (be : 0 < E ∧ E ≤ 2 * Real.pi)
    (bf : 0 < F ∧ F ≤ 2 * Real.pi) (hne : E ≠ F) :
    ind (H < F) - ind (H < E) - ind (H = E) + ind (F < E) = ind (angleStep E H < angleStep E F) := by
  have hpi := Real.pi_pos
  unfold ind angleStep
  rcases lt_or_gt_of_ne hne with c | c <;> rcases lt_trichotomy H E with d | d | d <;> split_ifs <;>
    first | rfl | (exfalso; linarith)

theorem wedge_cw {E F H : ℝ} (bh : 0 < H ∧ H ≤ 2 * Real.pi) (be : 0 < E ∧ E ≤ 2 * Real.pi)
    (bf : 0 < F ∧ F ≤ 2 * Real.pi) (hne : E ≠ F) :
    ind (H < E) - ind (H < F) - ind (H = F) + ind (E < F) = ind (angleStep H E < angleStep F E) := by
  have hpi := Real.pi_pos
  unfold ind angleStep
  rcases lt_or_gt_of_ne hne with c | c <;> rcases lt_trichotomy H F with d | d | d <;> split_ifs <;>
    first | rfl | (exfalso; linarith)

section
variable {segs : List (Seg C)} (hp : Planar segs)
include hp

theorem Planar.ang_bounds {s : Seg C} (hs : s ∈ segs) {p : Pt} (h : s.at p) : 0 < s.ang p ∧ s.ang p ≤ 2 * Real.pi :=
  ⟨(hp.hasAngle hs h).1, (hp.hasAngle hs h).2.1⟩

/-- The value on the inner side of the two edges of a corner differs by the flow inside the corner. -/
theorem Planar.wedge {φ : C → Int} (hc : Closed φ segs) {p : Pt} {e f : Seg C} (he : e ∈ segs) (hf : f ∈ segs)
    (hep : e.at p) (hfp : f.at p) (hne : e ≠ f) (cw : Bool) :
    (if cw then cwSide φ segs p e - ccwSide φ segs p f else cwSide φ segs p f - ccwSide φ segs p e) =
      wsum φ (fun h => outw p h * ind (sw cw p e h < sw cw p e f)) segs := by
  have hpi := Real.pi_pos
  have se := hp.star_sum hc he hep
  have sf := hp.star_sum hc hf hfp
  have ce := hp.ccwSide_eq φ he hep
  have cf := hp.ccwSide_eq φ hf hfp
  have hz := hp.outw_closed hc p
  have one : ∀ s ∈ segs, φ s.c * outw p s = wsum φ (fun h => outw p h * ind (h = s)) segs := by
    intro s hs
    have := wsum_single φ hp.nodup hs
    have e : ∀ h ∈ segs, outw p h * ind (h = s) = outw p s * ind (h = s) := by
      intro h _
      by_cases c : h = s
      · rw [c]
      · rw [ind_false c]; ring
    rw [wsum_congr φ e, wsum_mul, this, mul_comm]
  have hne' : e.ang p ≠ f.ang p := fun h => hne (hp.ang_inj he hf hep hfp h)
  have be := hp.ang_bounds he hep
  have bf := hp.ang_bounds hf hfp
  have key : ∀ k : Int, ∀ w : Seg C → Int, (∀ h ∈ segs, h.at p → w h + k = ind (sw cw p e h < sw cw p e f)) →
      wsum φ (fun h => outw p h * ind (sw cw p e h < sw cw p e f)) segs = wsum φ (fun h => outw p h * w h) segs := by
    intro k w hw
    have : wsum φ (fun h => outw p h * ind (sw cw p e h < sw cw p e f)) segs =
        wsum φ (fun h => outw p h * w h) segs + wsum φ (fun h => k * outw p h) segs := by
      rw [← wsum_add]
      refine wsum_congr φ fun h hh => ?_
      by_cases hhp : h.at p
      · rw [← hw h hh hhp]; ring
      · rw [outw_zero hhp]; ring
    rw [this, wsum_mul, hz]; ring
  cases cw
  · simp only [Bool.false_eq_true, if_false]
    rw [key (ind (f.ang p < e.ang p)) (fun h => ind (h.ang p < f.ang p) - ind (h.ang p < e.ang p) - ind (h = e))]
    · rw [ce, se, sf, one e he]
      have : ∀ a b c : Int, a - (b + c) = a + (-1) * b + (-1) * c := by intros; ring
      rw [this, ← wsum_mul, ← wsum_mul, ← wsum_add, ← wsum_add]
      refine wsum_congr φ fun h hh => ?_
      ring
    · intro h hh hhp
      have bh := hp.ang_bounds hh hhp
      have e1 : h = e ↔ h.ang p = e.ang p := ⟨fun h => by rw [h], fun h' => hp.ang_inj hh he hhp hep h'⟩
      rw [ind_congr e1]
      exact wedge_ccw bh be bf hne'
  · simp only [if_true]
    rw [key (ind (e.ang p < f.ang p)) (fun h => ind (h.ang p < e.ang p) - ind (h.ang p < f.ang p) - ind (h = f))]
    · rw [cf, se, sf, one f hf]
      have : ∀ a b c : Int, a - (b + c) = a + (-1) * b + (-1) * c := by intros; ring
      rw [this, ← wsum_mul, ← wsum_mul, ← wsum_add, ← wsum_add]
      refine wsum_congr φ fun h hh => ?_
      ring
    · intro h hh hhp
      have bh := hp.ang_bounds hh hhp
      have e1 : h = f ↔ h.ang p = f.ang p := ⟨fun h => by rw [h], fun h' => hp.ang_inj hh hf hhp hfp h'⟩
      rw [ind_congr e1]
      exact wedge_cw bh be bf hne'

/-- An earlier passage `x, y` through the vertex that turned before reaching `e` and `f` lies on one side of
the corner `e, f`. -/
theorem Planar.pair {p : Pt} {x y e f : Seg C} (hx : x ∈ segs) (hy : y ∈ segs) (he : e ∈ segs) (hf : f ∈ segs)
    (hxp : x.at p) (hyp : y.at p) (hep : e.at p) (hfp : f.at p) (cw : Bool) (nxe : x ≠ e) (nxf : x ≠ f)
    (nef : e ≠ f) (nxy : x ≠ y) (h1 : sw cw p x y < sw cw p x e) (h2 : sw cw p x y < sw cw p x f) :
    sw cw p e x < sw cw p e f ↔ sw cw p e y < sw cw p e f := by
  have hpi := Real.pi_pos
  have n1 : x.ang p ≠ e.ang p := fun h => nxe (hp.ang_inj hx he hxp hep h)
  have n2 : x.ang p ≠ f.ang p := fun h => nxf (hp.ang_inj hx hf hxp hfp h)
  have n3 : e.ang p ≠ f.ang p := fun h => nef (hp.ang_inj he hf hep hfp h)
  have n4 : x.ang p ≠ y.ang p := fun h => nxy (hp.ang_inj hx hy hxp hyp h)
  have bx := hp.ang_bounds hx hxp
  have by' := hp.ang_bounds hy hyp
  have be := hp.ang_bounds he hep
  have bf := hp.ang_bounds hf hfp
  unfold sw angleStep at *
  generalize x.ang p = X at *
  generalize y.ang p = Y at *
  generalize e.ang p = E at *
  generalize f.ang p = F at *
  cases cw <;> simp only [Bool.false_eq_true, if_false, if_true] at * <;>
    rcases lt_or_gt_of_ne n1 with c1 | c1 <;> rcases lt_or_gt_of_ne n2 with c2 | c2 <;>
    rcases lt_or_gt_of_ne n3 with c3 | c3 <;> rcases lt_or_gt_of_ne n4 with c4 | c4 <;>
    (have d1 := not_lt.2 c1.le; have d2 := not_lt.2 c2.le; have d3 := not_lt.2 c3.le; have d4 := not_lt.2 c4.le
     simp only [c1, c2, c3, c4, d1, d2, d3, d4, if_true, if_false] at h1 h2 ⊢
     split <;> constructor <;> intro h <;> linarith)

end

/-! ### walks -/

/-- An edge with a direction of travel. -/
structure Dart (C : Type) where
  s : Seg C
  fwd : Bool

def Dart.start (d : Dart C) : Pt := if d.fwd then d.s.a else d.s.b
def Dart.finish (d : Dart C) : Pt := if d.fwd then d.s.b else d.s.a

/-- +1 or -1. -/
def Dart.sign (d : Dart C) : Int := if d.fwd then 1 else -1

/-- The flow through an edge in the direction of travel. -/
def flux (φ : C → Int) (d : Dart C) : Int := d.sign * φ d.s.c

/-- Winding number on the inner side: left of the direction of travel if the walk turns clockwise at the
vertices, right of it otherwise. -/
noncomputable def hug (cw : Bool) (φ : C → Int) (segs : List (Seg C)) (d : Dart C) : Int :=
  botW φ segs d.s + if d.fwd = cw then φ d.s.c else 0

/-- Winding number on the other side. -/
noncomputable def far (cw : Bool) (φ : C → Int) (segs : List (Seg C)) (d : Dart C) : Int :=
  botW φ segs d.s + if d.fwd = cw then 0 else φ d.s.c

/-- +1 if the inner side is on the left. -/
def side (cw : Bool) : Int := if cw then 1 else -1

theorem hug_far (cw : Bool) (φ : C → Int) (segs : List (Seg C)) (d : Dart C) :
    hug cw φ segs d - far cw φ segs d = side cw * flux φ d := by
  unfold hug far side flux Dart.sign
  cases cw <;> cases d.fwd <;> simp

/-- A closed walk from `q` through different usable edges that at every vertex takes the first usable edge
not yet used. -/
structure Tour (cw : Bool) (segs : List (Seg C)) (U : Seg C → Prop) (q : Pt) (D : List (Dart C)) : Prop where
  mem : ∀ d ∈ D, d.s ∈ segs ∧ U d.s
  nodup : (D.map (·.s)).Nodup
  first : ∀ d ∈ D.head?, d.start = q
  last : ∀ d ∈ D.getLast?, d.finish = q
  next : ∀ pre e f post, D = pre ++ e :: f :: post → e.finish = f.start ∧ e.finish ≠ q
  turns : ∀ pre e f post, D = pre ++ e :: f :: post → ∀ h ∈ segs, U h → h.at e.finish →
    h ∉ (pre ++ [e]).map (·.s) → h ≠ f.s → sw cw e.finish e.s f.s < sw cw e.finish e.s h

theorem telescope {α : Type} (A B : α → Int) : ∀ (l : List α),
    (∀ l1 d d' l2, l = l1 ++ d :: d' :: l2 → B d = A d') → (∀ d ∈ l.head?, A d = 0) → (∀ d ∈ l.getLast?, B d = 0) →
    (l.map fun d => A d - B d).sum = 0 := by
  have main : ∀ (l : List α) (x : α), (∀ l1 d d' l2, x :: l = l1 ++ d :: d' :: l2 → B d = A d') →
      ((x :: l).map fun d => A d - B d).sum = A x - B ((x :: l).getLast (by simp)) := by
    intro l
    induction l with
    | nil => intro x _; simp
    | cons y l ih =>
      intro x h
      rw [List.map_cons, List.sum_cons, ih y (by
        intro l1 d d' l2 e
        exact h (x :: l1) d d' l2 (by rw [e]; rfl)), h [] x y l rfl]
      have : (x :: y :: l).getLast (by simp) = (y :: l).getLast (by simp) := List.getLast_cons (by simp)
      rw [this]
      ring
  intro l h h1 h2
  rcases l with _ | ⟨x, l⟩
  · rfl
  · rw [main l x h, h1 x rfl, h2 _ (List.getLast?_eq_some_getLast (by simp))]; rfl

theorem Dart.at_start (d : Dart C) : d.s.at d.start := by
  unfold Dart.start Seg.at; cases d.fwd <;> simp

theorem Dart.at_finish (d : Dart C) : d.s.at d.finish := by
  unfold Dart.finish Seg.at; cases d.fwd <;> simp

section
variable {segs : List (Seg C)} (hp : Planar segs)
include hp

theorem Planar.start_ne {d : Dart C} (h : d.s ∈ segs) : d.start ≠ d.finish := by
  have := hp.ab_ne h
  unfold Dart.start Dart.finish
  cases d.fwd
  · simpa using this.symm
  · simpa using this

theorem Planar.hug_finish (cw : Bool) (φ : C → Int) {d : Dart C} (h : d.s ∈ segs) :
    hug cw φ segs d = if cw then cwSide φ segs d.finish d.s else ccwSide φ segs d.finish d.s := by
  have hn := hp.ab_ne h
  unfold hug cwSide ccwSide Dart.finish
  cases cw <;> cases d.fwd <;> simp [hn]

theorem Planar.hug_start (cw : Bool) (φ : C → Int) {d : Dart C} (h : d.s ∈ segs) :
    hug cw φ segs d = if cw then ccwSide φ segs d.start d.s else cwSide φ segs d.start d.s := by
  have hn := hp.ab_ne h
  unfold hug cwSide ccwSide Dart.start
  cases cw <;> cases d.fwd <;> simp [hn]

omit hp in
theorem wsum_dart (φ : C → Int) (p : Pt) (w : Seg C → Int) (d : Dart C) :
    φ d.s.c * (outw p d.s * w d.s) = flux φ d * ((ind (d.start = p) - ind (d.finish = p)) * w d.s) := by
  unfold flux Dart.sign Dart.start Dart.finish outw
  cases d.fwd <;> (simp; try ring)

/-- From one edge of the walk to the next the inner value does not change, if the flow was the same through
all earlier edges. -/
theorem Tour.hug_next {cw : Bool} {U : Seg C → Prop} {q : Pt} {D : List (Dart C)} (hT : Tour cw segs U q D)
    {φ : C → Int} (hc : Closed φ segs) (hU : ∀ h ∈ segs, ¬ U h → φ h.c = 0) {pre post : List (Dart C)}
    {e f : Dart C} (hD : D = pre ++ e :: f :: post) {m : Int} (hm : ∀ d ∈ pre, flux φ d = m) :
    hug cw φ segs e = hug cw φ segs f := by
  have hnd := hT.nodup
  have me := hT.mem e (by rw [hD]; simp)
  have mf := hT.mem f (by rw [hD]; simp)
  obtain ⟨hef, hq⟩ := hT.next pre e f post hD
  have htn := hT.turns pre e f post hD
  have mpre : ∀ d ∈ pre, d.s ∈ segs ∧ U d.s := fun d hd => hT.mem d (by rw [hD]; simp [hd])
  rw [hD] at hnd
  rw [List.map_append, List.map_cons, List.map_cons] at hnd
  obtain ⟨n1, n2, n3⟩ := List.nodup_append.1 hnd
  have nef : e.s ≠ f.s := by
    intro h
    have := (List.nodup_cons.1 n2).1
    exact this (by rw [h]; simp)
  have npe : ∀ d ∈ pre, d.s ≠ e.s := fun d hd => n3 _ (List.mem_map_of_mem hd) _ (by simp)
  have npf : ∀ d ∈ pre, d.s ≠ f.s := fun d hd => n3 _ (List.mem_map_of_mem hd) _ (by simp)
  have fp : f.s.at e.finish := by rw [hef]; exact f.at_start
  have hw := hp.wedge hc me.1 mf.1 e.at_finish fp nef cw
  have hz : wsum φ (fun h => outw e.finish h * ind (sw cw e.finish e.s h < sw cw e.finish e.s f.s)) segs = 0 := by
    rw [wsum_sub φ (l' := pre.map (·.s)) hp.nodup n1 (by
        intro s hs
        obtain ⟨d, hd, rfl⟩ := List.mem_map.1 hs
        exact (mpre d hd).1)]
    · have tel := telescope
        (fun d : Dart C => ind (d.start = e.finish) * ind (sw cw e.finish e.s d.s < sw cw e.finish e.s f.s))
        (fun d : Dart C => ind (d.finish = e.finish) * ind (sw cw e.finish e.s d.s < sw cw e.finish e.s f.s)) pre
        (by
          intro l1 x y l2 hl
          have hD' : D = l1 ++ x :: y :: (l2 ++ e :: f :: post) := by rw [hD, hl]; simp
          have hx := mpre x (by rw [hl]; simp)
          have hy := mpre y (by rw [hl]; simp)
          obtain ⟨hxy, -⟩ := hT.next _ _ _ _ hD'
          rw [hxy]
          by_cases c : y.start = e.finish
          · have c' : x.finish = e.finish := hxy.trans c
            have ht := hT.turns _ _ _ _ hD'
            rw [c'] at ht
            have ein : e.s ∉ (l1 ++ [x]).map (·.s) := by
              intro h
              obtain ⟨d, hd, he⟩ := List.mem_map.1 h
              refine npe d ?_ he
              rw [hl]
              rcases List.mem_append.1 hd with h | h
              · simp [h]
              · rw [List.mem_singleton.1 h]; simp
            have fin : f.s ∉ (l1 ++ [x]).map (·.s) := by
              intro h
              obtain ⟨d, hd, he⟩ := List.mem_map.1 h
              refine npf d ?_ he
              rw [hl]
              rcases List.mem_append.1 hd with h | h
              · simp [h]
              · rw [List.mem_singleton.1 h]; simp
            have h1 := ht e.s me.1 me.2 e.at_finish ein (npe y (by rw [hl]; simp)).symm
            have h2 := ht f.s mf.1 mf.2 fp fin (npf y (by rw [hl]; simp)).symm
            have nxy : x.s ≠ y.s := by
              intro h
              rw [hl, List.map_append, List.map_cons, List.map_cons] at n1
              have := (List.nodup_cons.1 (List.nodup_append.1 n1).2.1).1
              exact this (by rw [h]; simp)
            have := hp.pair hx.1 hy.1 me.1 mf.1 (p := e.finish) (by rw [← c']; exact x.at_finish)
              (by rw [← c]; exact y.at_start) e.at_finish fp cw (npe x (by rw [hl]; simp)) (npf x (by rw [hl]; simp))
              nef nxy h1 h2
            rw [ind_congr this]
          · rw [ind_false c]; ring)
        (by
          intro d hd
          have hh : D.head? = some d := by
            rw [hD]
            rcases pre with _ | ⟨x, pre⟩
            · simp at hd
            · exact hd
          rw [hT.first d hh, ind_false (Ne.symm hq)]; ring)
        (by
          intro d hd
          obtain ⟨l, hl⟩ := List.getLast?_eq_some_iff.1 hd
          have hD' : D = l ++ d :: e :: f :: post := by rw [hD, hl]; simp
          have h1 := (hT.next _ _ _ _ hD').1
          rw [h1, ind_false (hp.start_ne me.1)]; ring)
      have e1 : wsum φ (fun h => outw e.finish h * ind (sw cw e.finish e.s h < sw cw e.finish e.s f.s))
          (pre.map (·.s)) = m * (pre.map fun d : Dart C =>
            ind (d.start = e.finish) * ind (sw cw e.finish e.s d.s < sw cw e.finish e.s f.s) -
            ind (d.finish = e.finish) * ind (sw cw e.finish e.s d.s < sw cw e.finish e.s f.s)).sum := by
        unfold wsum
        rw [List.map_map, ← List.sum_map_mul_left]
        congr 1
        refine List.map_congr_left fun d hd => ?_
        show φ d.s.c * (outw e.finish d.s * ind (sw cw e.finish e.s d.s < sw cw e.finish e.s f.s)) = _
        rw [wsum_dart φ e.finish (fun h => ind (sw cw e.finish e.s h < sw cw e.finish e.s f.s)) d, hm d hd]
        ring
      rw [e1, tel, mul_zero]
    · intro h hh hnp
      by_cases hu : U h
      · by_cases hat : h.at e.finish
        · have hn : ¬ sw cw e.finish e.s h < sw cw e.finish e.s f.s := by
            by_cases c1 : h = e.s
            · subst c1
              have be := hp.ang_bounds me.1 e.at_finish
              have bf := hp.ang_bounds mf.1 fp
              have hpi := Real.pi_pos
              unfold sw angleStep
              cases cw <;> simp <;> split <;> linarith
            · by_cases c2 : h = f.s
              · rw [c2]; exact lt_irrefl _
              · refine not_lt.2 (htn h hh hu hat ?_ c2).le
                intro hm'
                rw [List.map_append, List.mem_append] at hm'
                rcases hm' with h' | h'
                · exact hnp h'
                · simp at h'; exact c1 h'
          rw [ind_false hn]; ring
        · rw [outw_zero hat]; ring
      · rw [hU h hh hu]; ring
  rw [hz] at hw
  rw [hp.hug_finish cw φ me.1, hp.hug_start cw φ mf.1, ← hef]
  cases cw
  · simp only [Bool.false_eq_true, if_false] at hw ⊢; omega
  · simp only [if_true] at hw ⊢; omega

end

end IOverlay
