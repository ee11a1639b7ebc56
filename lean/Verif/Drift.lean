/-
How far rounding can move edges: every mark is close to the edge it splits, so a round of splitting changes winding
numbers close to the edges only.
-/
import Verif.Props.Bounds
import Verif.Whole

namespace IOverlay
variable {C : Type}
open WindingCount

/-! ### specification -/

/-- `q` is within `d` of the edge `a b` (maximum norm): some point of the edge differs from it by at most `d` in each
coordinate. -/
def Within (d : ℚ) (q : QPt) (a b : Pt) : Prop := ∃ p : QPt, onSeg p a b ∧ |q.x - p.x| ≤ d ∧ |q.y - p.y| ≤ d

/-- How far a point can be moved by snapping with a radius (the squared distance compared in split/cross_solver.rs:174),
including the rounding of the crossing point. -/
def reach (radius : Int) : ℚ := (Nat.sqrt radius.toNat : ℚ) + 1

/-- The sum of the reaches of the first `n - 1` rounds; the last round of `n` does not round, otherwise it would not be the
last. -/
def drift : SnapRadius → Nat → ℚ
  | _, 0 => 0
  | _, 1 => 0
  | sr, n + 2 => reach sr.radius + drift sr.increment (n + 1)

/-! ### the neighbourhood of an edge -/

theorem Within.mono {d e : ℚ} {q : QPt} {a b : Pt} (h : Within d q a b) (hd : d ≤ e) : Within e q a b := by
  obtain ⟨p, h1, h2, h3⟩ := h
  exact ⟨p, h1, h2.trans hd, h3.trans hd⟩

theorem Within.of_on {q : QPt} {a b : Pt} (h : onSeg q a b) : Within 0 q a b := ⟨q, h, by simp, by simp⟩

theorem Within.nonneg {d : ℚ} {q : QPt} {a b : Pt} (h : Within d q a b) : 0 ≤ d := by
  obtain ⟨p, -, h2, -⟩ := h
  exact (abs_nonneg _).trans h2

theorem reach_nonneg (radius : Int) : 0 ≤ reach radius := by unfold reach; positivity

theorem drift_nonneg : ∀ (n : Nat) (sr : SnapRadius), 0 ≤ drift sr n
  | 0, _ => le_refl _
  | 1, _ => le_refl _
  | n + 2, sr => by rw [drift]; have := reach_nonneg sr.radius; have := drift_nonneg (n + 1) sr.increment; linarith

/-- The neighbourhood is convex. -/
theorem Within.convex {d : ℚ} {u v w : QPt} {a b : Pt} (hu : Within d u a b) (hv : Within d v a b) {t : ℚ} (t0 : 0 ≤ t)
    (t1 : t ≤ 1) (wx : w.x = u.x + t * (v.x - u.x)) (wy : w.y = u.y + t * (v.y - u.y)) : Within d w a b := by
  obtain ⟨p, ⟨r, r0, r1, px, py⟩, p1, p2⟩ := hu
  obtain ⟨p', ⟨s, s0, s1, px', py'⟩, p1', p2'⟩ := hv
  rw [abs_le] at p1 p2 p1' p2'
  refine ⟨⟨p.x + t * (p'.x - p.x), p.y + t * (p'.y - p.y)⟩, ⟨r + t * (s - r), by nlinarith, by nlinarith, ?_, ?_⟩, ?_, ?_⟩
  · dsimp only; rw [px, px']; ring
  · dsimp only; rw [py, py']; ring
  · dsimp only; rw [wx, abs_le]; constructor <;> nlinarith
  · dsimp only; rw [wy, abs_le]; constructor <;> nlinarith

theorem Within.segment {d : ℚ} {u v : Pt} {a b : Pt} (hu : Within d u.q a b) (hv : Within d v.q a b) {q : QPt}
    (h : onSeg q u v) : Within d q a b := by
  obtain ⟨t, t0, t1, hx, hy⟩ := h
  exact hu.convex hv t0 t1 hx hy

theorem Within.trans {d e : ℚ} {q : QPt} {u v a b : Pt} (h : Within d q u v) (hu : Within e u.q a b)
    (hv : Within e v.q a b) : Within (e + d) q a b := by
  obtain ⟨p, p1, p2, p3⟩ := h
  obtain ⟨o, o1, o2, o3⟩ := hu.segment hv p1
  refine ⟨o, o1, ?_, ?_⟩
  · have := abs_sub_le q.x p.x o.x; linarith
  · have := abs_sub_le q.y p.y o.y; linarith

/-- Around a point outside a convex set, the edges between points of the set wind by the difference of a potential. -/
theorem edgeWind_potential {d : ℚ} {q : QPt} {a b : Pt} (hq : ¬ Within d q a b) :
    ∃ f : Pt → Int, ∀ u v : Pt, Within d u.q a b → Within d v.q a b → edgeWind u v q = f u - f v := by
  classical
  -- all edges crossing the vertical line through `q` are on the same side of `q`
  have same : ∀ u v u' v' : Pt, Within d u.q a b → Within d v.q a b → Within d u'.q a b → Within d v'.q a b →
      (u.x : ℚ) ≤ q.x → q.x < v.x → (u'.x : ℚ) ≤ q.x → q.x < v'.x → aboveLine u v q → aboveLine u' v' q := by
    intro u v u' v' hu hv hu' hv' c1 c2 c3 c4 hab
    by_contra hn
    unfold aboveLine at hab hn
    rw [not_lt] at hn
    apply hq
    -- the points of the two edges below and above `q`
    have d1 : 0 < (v.x : ℚ) - u.x := by linarith
    have d2 : 0 < (v'.x : ℚ) - u'.x := by linarith
    obtain ⟨t, ht⟩ : ∃ t : ℚ, t * ((v.x : ℚ) - u.x) = q.x - u.x := ⟨(q.x - u.x) / (v.x - u.x), by field_simp⟩
    obtain ⟨t', ht'⟩ : ∃ t : ℚ, t * ((v'.x : ℚ) - u'.x) = q.x - u'.x := ⟨(q.x - u'.x) / (v'.x - u'.x), by field_simp⟩
    have t0 : 0 ≤ t := by by_contra h; nlinarith
    have t1 : t ≤ 1 := by by_contra h; nlinarith
    have t0' : 0 ≤ t' := by by_contra h; nlinarith
    have t1' : t' ≤ 1 := by by_contra h; nlinarith
    have w1 : Within d ⟨q.x, u.y + t * ((v.y : ℚ) - u.y)⟩ a b :=
      hu.convex hv t0 t1 (by simp only [Pt.q]; linarith) (by simp only [Pt.q])
    have w2 : Within d ⟨q.x, u'.y + t' * ((v'.y : ℚ) - u'.y)⟩ a b :=
      hu'.convex hv' t0' t1' (by simp only [Pt.q]; linarith) (by simp only [Pt.q])
    have y1 : u.y + t * ((v.y : ℚ) - u.y) < q.y := by
      have e : ((v.x : ℚ) - u.x) * (u.y + t * ((v.y : ℚ) - u.y)) = (v.x - u.x) * u.y + (v.y - u.y) * (q.x - u.x) := by
        rw [← ht]; ring
      by_contra h
      have := mul_le_mul_of_nonneg_left (not_lt.1 h) d1.le
      rw [e] at this; linarith
    have y2 : q.y ≤ u'.y + t' * ((v'.y : ℚ) - u'.y) := by
      have e : ((v'.x : ℚ) - u'.x) * (u'.y + t' * ((v'.y : ℚ) - u'.y)) = (v'.x - u'.x) * u'.y + (v'.y - u'.y) * (q.x - u'.x) := by
        rw [← ht']; ring
      by_contra h
      have := mul_lt_mul_of_pos_left (not_le.1 h) d2
      rw [e] at this; linarith
    generalize u.y + t * ((v.y : ℚ) - u.y) = A at *
    generalize u'.y + t' * ((v'.y : ℚ) - u'.y) = B at *
    have hAB : 0 < B - A := by linarith
    refine w1.convex w2 (t := (q.y - A) / (B - A)) (by apply div_nonneg <;> linarith)
      (by rw [div_le_one hAB]; linarith) (by simp) ?_
    dsimp only; field_simp; ring
  by_cases hc : ∃ u v : Pt, Within d u.q a b ∧ Within d v.q a b ∧ (u.x : ℚ) ≤ q.x ∧ q.x < v.x ∧ aboveLine u v q
  · obtain ⟨u0, v0, a1, a2, a3, a4, a5⟩ := hc
    refine ⟨fun u => if (u.x : ℚ) ≤ q.x then 1 else 0, ?_⟩
    intro u v hu hv
    unfold edgeWind
    by_cases c1 : (u.x : ℚ) ≤ q.x <;> by_cases c2 : (v.x : ℚ) ≤ q.x
    · rw [if_neg (by intro h; linarith [h.2.1]), if_neg (by intro h; linarith [h.2.1])]; simp [c1, c2]
    · rw [if_pos ⟨c1, not_le.1 c2, same u0 v0 u v a1 a2 hu hv a3 a4 c1 (not_le.1 c2) a5⟩]; simp [c1, c2]
    · rw [if_neg (by intro h; exact c1 h.1), if_pos ⟨c2, not_le.1 c1, same u0 v0 v u a1 a2 hv hu a3 a4 c2 (not_le.1 c1) a5⟩]
      simp [c1, c2]
    · rw [if_neg (by intro h; exact c1 h.1), if_neg (by intro h; exact c2 h.1)]; simp [c1, c2]
  · refine ⟨fun _ => 0, ?_⟩
    intro u v hu hv
    unfold edgeWind
    rw [if_neg fun h => hc ⟨u, v, hu, hv, h⟩, if_neg fun h => hc ⟨v, u, hv, hu, h⟩]; simp

/-- A path close to an edge, with the ends of the edge, winds around points that are not as close as the edge does. -/
theorem pathSum_far {d : ℚ} {q : QPt} {a b : Pt} (hq : ¬ Within d q a b) (hd : 0 ≤ d) {l : List Pt}
    (hl : ∀ p ∈ l, Within d p.q a b) : pathSum (fun u v => edgeWind u v q) b a l = edgeWind a b q := by
  obtain ⟨f, hf⟩ := edgeWind_potential hq
  have ha : Within d a.q a b := (Within.of_on ⟨0, le_refl _, by norm_num, by unfold atParam Pt.q; simp⟩).mono hd
  have hb : Within d b.q a b := (Within.of_on ⟨1, by norm_num, le_refl _, by unfold atParam Pt.q; simp⟩).mono hd
  have key : ∀ (l : List Pt) (p : Pt), Within d p.q a b → (∀ p ∈ l, Within d p.q a b) →
      pathSum (fun u v => edgeWind u v q) b p l = f p - f b := by
    intro l
    induction l with
    | nil => intro p hp _; exact hf p b hp hb
    | cons m rest ih =>
      intro p hp hl
      have hm := hl m (by simp)
      rw [pathSum, ih m hm fun x hx => hl x (List.mem_cons_of_mem _ hx), hf p m hp hm]
      ring
  rw [key l a ha hl, hf a b ha hb]

/-! ### marks are close to their edges -/

theorem within_sqrt {e p : Pt} {radius : Int} (h : sqrDist e p ≤ radius) :
    |(e.x : ℚ) - p.x| ≤ Nat.sqrt radius.toNat ∧ |(e.y : ℚ) - p.y| ≤ Nat.sqrt radius.toNat := by
  have key : ∀ z : Int, z * z ≤ radius → |(z : ℚ)| ≤ Nat.sqrt radius.toNat := by
    intro z hz
    have h1 : z.natAbs * z.natAbs ≤ radius.toNat := by
      have : ((z.natAbs * z.natAbs : Nat) : Int) ≤ radius := by rw [Int.natAbs_mul_self]; exact hz
      omega
    have h2 := Nat.le_sqrt.2 h1
    have h3 : ((z.natAbs : Nat) : ℚ) = |(z : ℚ)| := Nat.cast_natAbs z |>.trans (by push_cast; rfl)
    rw [← h3]
    exact_mod_cast h2
  unfold sqrDist at h
  have a1 := key (e.x - p.x) (by nlinarith [mul_self_nonneg (e.y - p.y)])
  have a2 := key (e.y - p.y) (by nlinarith [mul_self_nonneg (e.x - p.x)])
  push_cast at a1 a2
  exact ⟨a1, a2⟩

/-- The point chosen for a crossing is within the radius of the computed crossing point. -/
theorem middleCross_near (t o : XSeg) {radius : Int} (hr : 0 ≤ radius) :
    sqrDist (middleCross t o radius).point (crossPoint t o) ≤ radius := by
  have self : ∀ p : Pt, sqrDist p p ≤ radius := by
    intro p
    have : sqrDist p p = 0 := by unfold sqrDist; ring
    omega
  unfold middleCross
  dsimp only
  split_ifs <;> first | exact self _ | (dsimp only; omega)

theorem crossMarks_within {p : EPair} (hi : p.ei.a ≠ p.ei.b) (hj : p.ej.a ≠ p.ej.b) {radius : Int} (hr : 0 ≤ radius)
    (r1 : InRange p.ei.a) (r2 : InRange p.ei.b) (r3 : InRange p.ej.a) (r4 : InRange p.ej.b) {m : Mark}
    (hm : m ∈ (crossMarks radius p).1) :
    (m.index = p.i ∧ Within (if (crossMarks radius p).2 then reach radius else 0) m.point.q p.ei.a p.ei.b) ∨
    (m.index = p.j ∧ Within (if (crossMarks radius p).2 then reach radius else 0) m.point.q p.ej.a p.ej.b) := by
  cases hfl : (crossMarks radius p).2 with
  | false =>
    simp only [Bool.false_eq_true, if_false]
    have sp := crossMarks_spec p hi hj hr
    generalize crossMarks radius p = r at sp hm hfl
    cases sp with
    | none => simp at hm
    | endI pt _ _ h =>
      simp only [List.mem_singleton] at hm; subst hm
      exact Or.inl ⟨rfl, Within.of_on h.on⟩
    | endJ pt _ _ h =>
      simp only [List.mem_singleton] at hm; subst hm
      exact Or.inr ⟨rfl, Within.of_on h.on⟩
    | both pt _ h h' =>
      simp only [List.mem_cons, List.not_mem_nil, or_false] at hm
      rcases hm with rfl | rfl
      · exact Or.inl ⟨rfl, Within.of_on h.on⟩
      · exact Or.inr ⟨rfl, Within.of_on h'.on⟩
    | round => simp at hfl
    | overlay l _ h =>
      rcases (h m).1 hm with ⟨h1, -, h2⟩ | ⟨h1, -, h2⟩
      · exact Or.inr ⟨h1, Within.of_on h2.on⟩
      · exact Or.inl ⟨h1, Within.of_on h2.on⟩
  | true =>
    simp only [if_true]
    have sp := cross_spec p.ei p.ej hi hj radius
    unfold crossMarks at hm hfl
    generalize cross p.ei p.ej radius = r at sp hm hfl
    cases sp with
    | overlay h =>
      dsimp only at hfl
      split at hfl <;> simp at hfl
    | none h hn => simp at hfl
    | otherEnd pt h he hin => simp at hfl
    | targetEnd pt h he hin => simp at hfl
    | middle h1 h2 =>
      obtain ⟨P, P1, P2, -, ex, ey, -, -⟩ := C17_crossing_accuracy p.ei p.ej h1 h2 r1 r2 r3 r4
      have hnear := within_sqrt (middleCross_near p.ei p.ej hr)
      have near : ∀ a b : Pt, inSeg P a b → Within (reach radius) (middleCross p.ei p.ej radius).point.q a b := by
        intro a b hP
        refine ⟨P, hP.on, ?_, ?_⟩
        · have := abs_sub_le ((middleCross p.ei p.ej radius).point.x : ℚ) (crossPoint p.ei p.ej).x P.x
          have := hnear.1
          unfold reach
          simp only [Pt.q]
          linarith
        · have := abs_sub_le ((middleCross p.ei p.ej radius).point.y : ℚ) (crossPoint p.ei p.ej).y P.y
          have := hnear.2
          unfold reach
          simp only [Pt.q]
          linarith
      have n1 := near _ _ P1
      have n2 := near _ _ P2
      have ms := middleCross_spec h1 h2 hr
      generalize middleCross p.ei p.ej radius = res at hm n1 n2 ms
      cases ms with
      | exact q _ _ =>
        simp only [List.mem_cons, List.not_mem_nil, or_false] at hm
        rcases hm with rfl | rfl
        · exact Or.inl ⟨rfl, n1⟩
        · exact Or.inr ⟨rfl, n2⟩
      | round q _ =>
        simp only [List.mem_cons, List.not_mem_nil, or_false] at hm
        rcases hm with rfl | rfl
        · exact Or.inl ⟨rfl, n1⟩
        · exact Or.inr ⟨rfl, n2⟩
      | target q _ =>
        simp only [List.mem_singleton] at hm; subst hm; exact Or.inr ⟨rfl, n2⟩
      | other q _ =>
        simp only [List.mem_singleton] at hm; subst hm; exact Or.inl ⟨rfl, n1⟩

/-! ### a round -/

/-- The distance a round of splitting can move edges. -/
def roundReach (radius : Int) (pairs : List EPair) : ℚ := if (roundMarks radius pairs).2 then reach radius else 0

theorem roundReach_nonneg (radius : Int) (pairs : List EPair) : 0 ≤ roundReach radius pairs := by
  unfold roundReach; split
  · exact reach_nonneg _
  · exact le_refl _

section
variable {segs : List (Seg C)} {pairs : List EPair} {radius : Int} (hl : ∀ s ∈ segs, s.a < s.b) (hc : Covers pairs segs)
  (hr : 0 ≤ radius) (hR : ∀ s ∈ segs, InRange s.a ∧ InRange s.b)
include hl hc hr hR

theorem roundMarks_within {m : Mark} (hm : m ∈ (roundMarks radius pairs).1) {s : Seg C} (hs : segs[m.index]? = some s) :
    Within (roundReach radius pairs) m.point.q s.a s.b := by
  obtain ⟨p, hp, hmp⟩ := List.mem_flatMap.1 hm
  obtain ⟨n1, n2⟩ := pair_nondeg hl hc hr hp
  obtain ⟨-, ⟨s1, h1, e1⟩, ⟨s2, h2, e2⟩⟩ := hc.sound p hp
  have m1 := hR s1 (List.mem_of_getElem? h1)
  have m2 := hR s2 (List.mem_of_getElem? h2)
  have hle : (if (crossMarks radius p).2 then reach radius else 0) ≤ roundReach radius pairs := by
    unfold roundReach
    cases hf : (crossMarks radius p).2 with
    | false =>
      simp only [Bool.false_eq_true, if_false]
      exact roundReach_nonneg radius pairs
    | true =>
      have : (roundMarks radius pairs).2 = true := by
        unfold roundMarks; rw [List.any_eq_true]; exact ⟨p, hp, hf⟩
      rw [this]
  rcases crossMarks_within n1 n2 hr (by rw [e1]; exact m1.1) (by rw [e1]; exact m1.2) (by rw [e2]; exact m2.1)
    (by rw [e2]; exact m2.2) hmp with ⟨i, w⟩ | ⟨i, w⟩
  · rw [i, h1] at hs
    obtain rfl := Option.some.inj hs
    rw [e1] at w
    exact w.mono hle
  · rw [i, h2] at hs
    obtain rfl := Option.some.inj hs
    rw [e2] at w
    exact w.mono hle

/-- A round keeps winding numbers of points far from the edges. -/
theorem round_wind [WindingCount C] {φ : C → Int} (hφ : IsComp φ) {q : QPt}
    (hq : ∀ s ∈ segs, ¬ Within (roundReach radius pairs) q s.a s.b) :
    segsWind φ (applyMarks (roundMarks radius pairs).1 segs) q = segsWind φ segs q := by
  rw [segsWind_eq_segSum, segsWind_eq_segSum]
  refine applyMarks_sum hφ _ (fun u v => edgeWind_swap u v q) _ _ ?_
  intro i s hs pts hpts
  refine pathSum_far (hq s (List.mem_of_getElem? hs)) (roundReach_nonneg _ _) ?_
  intro p hp
  exact roundMarks_within hl hc hr hR (hpts p hp) hs

/-- After a round every edge is close to an edge before. -/
theorem round_close [WindingCount C] {e : Seg C} (he : e ∈ applyMarks (roundMarks radius pairs).1 segs) :
    ∃ s ∈ segs, Within (roundReach radius pairs) e.a.q s.a s.b ∧ Within (roundReach radius pairs) e.b.q s.a s.b := by
  obtain ⟨e', h1, h2, h3⟩ := mergeIfNeeded_edges _ e he
  rw [(sortSegs_perm _).mem_iff] at h1
  rw [h2, h3]
  obtain ⟨i, s, h4, h5⟩ := (mem_splitAll _ _ _ _).1 h1
  rw [Nat.zero_add] at h5
  have d0 := roundReach_nonneg radius pairs
  have ha : Within (roundReach radius pairs) s.a.q s.a s.b :=
    (Within.of_on ⟨0, le_refl _, by norm_num, by unfold atParam Pt.q; simp⟩).mono d0
  have hb : Within (roundReach radius pairs) s.b.q s.a s.b :=
    (Within.of_on ⟨1, by norm_num, le_refl _, by unfold atParam Pt.q; simp⟩).mono d0
  refine ⟨s, List.mem_of_getElem? h4, ?_⟩
  unfold splitSeg at h5
  split at h5
  · rw [List.mem_singleton] at h5; subst h5; exact ⟨ha, hb⟩
  · rename_i m rest hpt
    refine chainSegs_ends s.c s.b s.a _ (fun p => Within (roundReach radius pairs) p.q s.a s.b) ha hb ?_ e' h5
    intro p hp
    have := (subSort_perm _ _ _ _).mem_iff.1 hp
    rw [← hpt, mem_pointsOf] at this
    exact roundMarks_within hl hc hr hR this h4

end

/-! ### all rounds -/

/-- All rounds of splitting: winding numbers change only close to the edges, and the edges stay close. -/
theorem splitLoop_drift [WindingCount C] (tree : TreeOracle C) (n : Nat) (sr : SnapRadius) (segs r : List (Seg C))
    (hb : InBox rangeBox segs) (he : splitLoop .list tree n .list sr segs = some r) :
    (∀ φ : C → Int, IsComp φ → ∀ q : QPt, (∀ s ∈ segs, ¬ Within (drift sr n) q s.a s.b) →
      segsWind φ r q = segsWind φ segs q) ∧
    ∀ e ∈ r, ∃ s ∈ segs, Within (drift sr n) e.a.q s.a s.b ∧ Within (drift sr n) e.b.q s.a s.b := by
  induction n generalizing sr segs with
  | zero => simp [splitLoop] at he
  | succ n ih =>
    have hc := listPairs_covers segs (sorted_of_strict hb.sorted) hb.lt
    have same : ∀ d : ℚ, 0 ≤ d → (∀ φ : C → Int, IsComp φ → ∀ q : QPt, (∀ s ∈ segs, ¬ Within d q s.a s.b) →
        segsWind φ segs q = segsWind φ segs q) ∧
        ∀ e ∈ segs, ∃ s ∈ segs, Within d e.a.q s.a s.b ∧ Within d e.b.q s.a s.b := by
      intro d hd
      refine ⟨fun _ _ _ _ => rfl, fun e he => ⟨e, he, ?_, ?_⟩⟩
      · exact (Within.of_on ⟨0, le_refl _, by norm_num, by unfold atParam Pt.q; simp⟩).mono hd
      · exact (Within.of_on ⟨1, by norm_num, le_refl _, by unfold atParam Pt.q; simp⟩).mono hd
    rw [splitLoop] at he
    simp only [isListSplit_list, if_true] at he
    split at he
    · obtain rfl := Option.some.inj he; exact same _ (drift_nonneg _ _)
    · split at he
      · obtain rfl := Option.some.inj he; exact same _ (drift_nonneg _ _)
      · split at he
        · rename_i hf
          cases n with
          | zero => simp [splitLoop] at he
          | succ n =>
            obtain ⟨i1, i2⟩ := ih sr.increment _ (hb.round hc sr.radius_nonneg) he
            have hrr : roundReach sr.radius (listPairs segs) = reach sr.radius := by unfold roundReach; rw [if_pos hf]
            have d0 := drift_nonneg (n + 1) sr.increment
            constructor
            · intro φ hφ q hq
              rw [i1 φ hφ q ?_, round_wind hb.lt hc sr.radius_nonneg hb.range hφ ?_]
              · intro s hs hw
                rw [hrr] at hw
                refine hq s hs (hw.mono ?_)
                rw [drift]; linarith
              · intro e he hw
                obtain ⟨s, hs, w1, w2⟩ := round_close hb.lt hc sr.radius_nonneg hb.range he
                rw [hrr] at w1 w2
                exact hq s hs (hw.trans w1 w2)
            · intro e he
              obtain ⟨s', hs', w1, w2⟩ := i2 e he
              obtain ⟨s, hs, v1, v2⟩ := round_close hb.lt hc sr.radius_nonneg hb.range hs'
              rw [hrr] at v1 v2
              exact ⟨s, hs, w1.trans v1 v2, w2.trans v1 v2⟩
        · rename_i hf
          obtain rfl := Option.some.inj he
          have hrr : roundReach sr.radius (listPairs segs) = 0 := by unfold roundReach; rw [if_neg hf]
          have d0 := drift_nonneg (n + 1) sr
          constructor
          · intro φ hφ q hq
            refine round_wind hb.lt hc sr.radius_nonneg hb.range hφ ?_
            intro s hs hw
            rw [hrr] at hw
            exact hq s hs (hw.mono d0)
          · intro e he
            obtain ⟨s, hs, v1, v2⟩ := round_close hb.lt hc sr.radius_nonneg hb.range he
            rw [hrr] at v1 v2
            exact ⟨s, hs, v1.mono d0, v2.mono d0⟩

/-! ### from the given contours to the noded edges -/

/-- Every strategy makes the rounds of the list strategy, at most as many. -/
theorem noded_to_list {st : Strategy} {sr : SnapRadius} {tree : TreeOracle CountBool} (ht : tree.Ok) {fuel : Nat}
    {subj clip : List (List Pt)} {segs : List (Seg CountBool)}
    (hf : FragOk st sr (overlaySegments subj clip : List (Seg CountBool)))
    (h : splitSegments st sr tree fuel (overlaySegments subj clip) = some segs) :
    splitLoop .list tree fuel .list sr (mergeIfNeeded (sortSegs (overlaySegments subj clip))) = some segs := by
  have hs := start_sorted (overlaySegments subj clip : List (Seg CountBool))
  have hl := start_lt (overlaySegments_lt (C := CountBool) subj clip)
  have hp := (overlaySegments_boolOk subj clip).start
  unfold splitSegments at h
  simp only at h
  split at h
  · exact loop_to_list st tree ht fuel _ sr _ segs hs hl hp h
  · next hn =>
    split at h
    · next hfr =>
      unfold fragSplit at h
      split at h
      · exact loop_to_list st tree ht fuel _ sr _ segs hs hl hp h
      · next g hg =>
        obtain ⟨f1, f2⟩ := hf (by simpa using hn) hfr g hg
        exact frag_to_list tree g fuel sr _ segs ⟨hs, Grid.new_inGrid hs hl hg, f1⟩ f2 hp h
    · exact loop_to_list st tree ht fuel _ sr _ segs hs hl hp h

/-- The noded edges wind around points far from the given contours as these do, and stay close to them. -/
theorem noded_drift {st : Strategy} {sr : SnapRadius} {tree : TreeOracle CountBool} (ht : tree.Ok) {fuel : Nat}
    {subj clip : List (List Pt)} {segs : List (Seg CountBool)}
    (hf : FragOk st sr (overlaySegments subj clip : List (Seg CountBool)))
    (hns : ∀ c ∈ subj, NotClosedExplicitly c) (hnc : ∀ c ∈ clip, NotClosedExplicitly c)
    (hin : ∀ c ∈ subj ++ clip, ∀ p ∈ c, InRange p)
    (he : nodedEdges st sr tree fuel (overlaySegments subj clip) = some segs) :
    (∀ q : QPt, (∀ e ∈ (subj ++ clip).flatMap polyEdges, ¬ Within (drift sr fuel) q e.1 e.2) →
      segsWind CountBool.subj segs q = polysWind subj q ∧ segsWind CountBool.clip segs q = polysWind clip q) ∧
    ∀ s ∈ segs, ∀ q, onSeg q s.a s.b → ∃ e ∈ (subj ++ clip).flatMap polyEdges, Within (drift sr fuel) q e.1 e.2 := by
  have hal := overlaySegments_along (C := CountBool) hns hnc
  unfold nodedEdges at he
  split at he
  · rename_i hem
    obtain rfl := Option.some.inj he
    rw [List.isEmpty_iff] at hem
    refine ⟨fun q _ => ?_, by simp⟩
    have h4 := C04_overlay_winding subj clip hns hnc q
    rw [hem] at h4
    exact ⟨h4.1, h4.2.1⟩
  · have hlist := noded_to_list ht hf he
    have hbox : InBox rangeBox (mergeIfNeeded (sortSegs (overlaySegments subj clip : List (Seg CountBool)))) := by
      have := start_ends (overlaySegments_ends (C := CountBool) (P := InRange) hin)
      exact ⟨start_sorted _, start_lt (overlaySegments_lt subj clip), this,
        fun s hs => ⟨(rangeBox_has _).2 (this s hs).1, (rangeBox_has _).2 (this s hs).2⟩⟩
    obtain ⟨w, c⟩ := splitLoop_drift tree fuel sr _ segs hbox hlist
    have hM : ∀ s ∈ mergeIfNeeded (sortSegs (overlaySegments subj clip : List (Seg CountBool))), ∀ q d,
        Within d q s.a s.b → ∃ e ∈ (subj ++ clip).flatMap polyEdges, Within d q e.1 e.2 := by
      rintro s hs q d ⟨p, hp, p1, p2⟩
      obtain ⟨t, h1, h2, h3⟩ := mergeIfNeeded_edges _ s hs
      rw [h2, h3] at hp
      obtain ⟨e, he, hon⟩ := (hal t ((sortSegs_perm _).mem_iff.1 h1)).on hp
      exact ⟨e, he, p, hon, p1, p2⟩
    constructor
    · intro q hq
      have h4 := C04_overlay_winding subj clip hns hnc q
      have far : ∀ s ∈ mergeIfNeeded (sortSegs (overlaySegments subj clip : List (Seg CountBool))),
          ¬ Within (drift sr fuel) q s.a s.b := by
        intro s hs hw
        obtain ⟨e, he, hw⟩ := hM s hs q _ hw
        exact hq e he hw
      have k1 := w _ isComp_subj q far
      have k2 := w _ isComp_clip q far
      rw [segsWind_eq_segSum, segsWind_eq_segSum, start_sum isComp_subj, ← segsWind_eq_segSum, ← segsWind_eq_segSum] at k1
      rw [segsWind_eq_segSum, segsWind_eq_segSum, start_sum isComp_clip, ← segsWind_eq_segSum, ← segsWind_eq_segSum] at k2
      exact ⟨k1.trans h4.1, k2.trans h4.2.1⟩
    · intro s hs q hq
      obtain ⟨t, ht', w1, w2⟩ := c s hs
      exact hM t ht' q _ (w1.segment w2 hq)

end IOverlay
