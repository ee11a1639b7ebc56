/-
A contour with four points that needs as many splitting rounds as its coordinates are large, if the snap radius does not
grow (`Precision::ABSOLUTE`).
-/
import Verif.Props.Split
import Verif.DivLemmas

namespace IOverlay
open WindingCount

/-- Three edges of the contour, after some rounds: `m` grows by two in every round. -/
def zigS1 (n m : Int) : XSeg := ⟨⟨m - 2, 1⟩, ⟨n, 0⟩⟩
def zigS2 (n m : Int) : XSeg := ⟨⟨m, 1⟩, ⟨n, 0⟩⟩
def zigS3 (n m : Int) : XSeg := ⟨⟨m, 1⟩, ⟨n + 1, -1⟩⟩
/-- The edge closing the contour. -/
def zigB (n : Int) : XSeg := ⟨⟨0, 1⟩, ⟨n + 1, -1⟩⟩
/-- Edges on the line `y = 1`, up to `m`. -/
def zigH (m : Int) (s : XSeg) : Prop := s.a.y = 1 ∧ s.b.y = 1 ∧ 0 ≤ s.a.x ∧ s.a.x < s.b.x ∧ s.b.x ≤ m

/-- The edges of a round. -/
def ZigShape (n m : Int) (s : XSeg) : Prop :=
  zigH m s ∨ s = zigB n ∨ s = zigS1 n m ∨ s = zigS2 n m ∨ s = zigS3 n m

structure Zig (n m : Int) (segs : List (Seg CountBool)) : Prop where
  sorted : segs.Pairwise Seg.lt
  nonempty : ∀ s ∈ segs, isNotEmpty s.c = true
  shape : ∀ s ∈ segs, ZigShape n m s.x
  s1 : ∃ s ∈ segs, s.x = zigS1 n m
  s2 : ∃ s ∈ segs, s.x = zigS2 n m
  s3 : ∃ s ∈ segs, s.x = zigS3 n m

/-! ### counts of pieces -/

theorem countBool_invert_nonempty (c : CountBool) (h : isNotEmpty c = true) : isNotEmpty (invert c) = true := by
  simp only [WindingCount.isNotEmpty, WindingCount.invert] at *
  simpa using h

theorem keySum_append {C : Type} [LawfulCount C] (l l' : List (Seg C)) (a b : Pt) :
    keySum (l ++ l') a b = add (keySum l a b) (keySum l' a b) := by
  induction l with
  | nil => rw [List.nil_append, keySum_nil, LawfulCount.zero_add']
  | cons s l ih =>
    rw [List.cons_append, keySum_cons, keySum_cons, ih]
    split
    · rw [LawfulCount.add_assoc']
    · rfl

theorem keySum_splitAll {C : Type} [LawfulCount C] (marks : List Mark) (k : Nat) (l : List (Seg C)) {i : Nat} {s e : Seg C}
    (hi : l[i]? = some s) (x y : List (Seg C)) (hx : splitSeg marks (k + i) s = x ++ e :: y)
    (hxy : ∀ t ∈ x ++ y, ¬ (t.a = e.a ∧ t.b = e.b))
    (ho : ∀ j t, l[j]? = some t → j ≠ i → ∀ f ∈ splitSeg marks (k + j) t, ¬ (f.a = e.a ∧ f.b = e.b)) :
    keySum (splitAll marks k l) e.a e.b = e.c := by
  induction l generalizing k i with
  | nil => simp at hi
  | cons u l ih =>
    rw [splitAll, keySum_append]
    cases i with
    | zero =>
      simp only [List.getElem?_cons_zero, Option.some.injEq] at hi
      subst hi
      rw [Nat.add_zero] at hx
      rw [hx, keySum_append, keySum_cons, if_pos ⟨rfl, rfl⟩,
        keySum_eq_zero (l := x) fun t ht => hxy t (List.mem_append_left _ ht),
        keySum_eq_zero (l := y) fun t ht => hxy t (List.mem_append_right _ ht),
        keySum_eq_zero (l := splitAll marks (k + 1) l), LawfulCount.zero_add', add_zero', add_zero']
      intro f hf
      obtain ⟨j, t, h1, h2⟩ := (mem_splitAll _ _ _ _).1 hf
      refine ho (j + 1) t (by simpa using h1) (by omega) f ?_
      rwa [show k + (j + 1) = k + 1 + j by omega]
    | succ i =>
      rw [keySum_eq_zero (l := splitSeg marks k u), LawfulCount.zero_add']
      · refine ih (k + 1) (by simpa using hi) (by rwa [show k + 1 + i = k + (i + 1) by omega]) ?_
        intro j t hj hji f hf
        refine ho (j + 1) t (by simpa using hj) (by omega) f ?_
        rwa [show k + (j + 1) = k + 1 + j by omega]
      · exact ho 0 u (by simp) (by omega)

/-! ### the crossing -/

theorem wideDiv_narrow {a x d : Int} (h : a.natAbs * x.natAbs < 2 ^ 64) (hd : 0 < d.natAbs) (hd2 : d.natAbs < 2 ^ 63) :
    wideDiv a x d = (((2 * (a.natAbs * x.natAbs) + d.natAbs) / (2 * d.natAbs) : Nat) : Int) := by
  unfold wideDiv
  have hb : (BitVec.ofNat 64 d.natAbs).toNat = d.natAbs := by
    rw [BitVec.toNat_ofNat]; omega
  rw [divide_narrow _ _ ?_ (by rw [hb]; exact hd) (by rw [hb]; exact hd2), hb, U128.ofNat_toNat _ (by omega)]
  unfold U128.ofNat
  simp only
  rw [Nat.div_eq_of_lt h]

theorem zig_point {n m : Int} (hu : 6 ≤ n - m) (hb : n - m < 2 ^ 31) :
    crossPoint (zigS1 n m) (zigS3 n m) = ⟨m + 2, 1⟩ := by
  obtain ⟨u, hu'⟩ : ∃ u : Nat, n - m = u := ⟨(n - m).toNat, by omega⟩
  have hn : n = m + u := by omega
  subst hn
  unfold crossPoint zigS1 zigS3
  dsimp only
  have e1 : m + (u : Int) - (m - 2) = u + 2 := by ring
  have e2 : m - (m - 2) = 2 := by ring
  have e3 : m + (u : Int) + 1 - (m - 2) = u + 3 := by ring
  rw [e1, e2, e3]
  rw [if_neg (by omega), if_neg (by omega)]
  have e4 : (2 : Int) * (-1 - 1) - (1 - 1) * (u + 3) = -4 := by ring
  have e5 : ((0 : Int) - 1) * (2 - (u + 3)) - (u + 2) * (1 - 1 - (-1 - 1)) = -(u + 3) := by ring
  rw [e4, e5]
  have s1 : (-((u : Int) + 3)).sign = -1 := Int.sign_eq_neg_one_of_neg (by omega)
  have s2 : (-4 : Int).sign = -1 := rfl
  have s3 : ((u : Int) + 2).sign = 1 := Int.sign_eq_one_of_pos (by omega)
  have s4 : ((0 : Int) - 1).sign = -1 := rfl
  rw [s1, s2, s3, s4]
  have d1 : (-((u : Int) + 3)).natAbs = u + 3 := by omega
  have d2 : ((u : Int) + 2).natAbs = u + 2 := by omega
  have d3 : (-4 : Int).natAbs = 4 := rfl
  have d4 : ((0 : Int) - 1).natAbs = 1 := rfl
  rw [wideDiv_narrow (by rw [d2, d3]; omega) (by rw [d1]; omega) (by rw [d1]; omega),
    wideDiv_narrow (by rw [d3, d4]; omega) (by rw [d1]; omega) (by rw [d1]; omega), d1, d2, d3, d4]
  have q1 : (2 * ((u + 2) * 4) + (u + 3)) / (2 * (u + 3)) = 4 := by
    rw [Nat.div_eq_iff (by omega)]; omega
  have q2 : (2 * (1 * 4) + (u + 3)) / (2 * (u + 3)) = 0 := by
    rw [Nat.div_eq_of_lt (by omega)]
  rw [q1, q2]
  congr 1
  · push_cast; ring

theorem zig_cross {n m : Int} (hu : 6 ≤ n - m) (hb : n - m < 2 ^ 31) (i j : Nat) :
    crossMarks 1 ⟨i, j, zigS1 n m, zigS3 n m⟩ = ([⟨i, ⟨m + 2, 1⟩⟩, ⟨j, ⟨m + 2, 1⟩⟩], true) := by
  have hp := zig_point hu hb
  obtain ⟨u, hu'⟩ : ∃ u : Nat, n - m = u := ⟨(n - m).toNat, by omega⟩
  have hn : n = m + u := by omega
  subst hn
  have a1 : area2 (zigS1 (m + u) m).a (zigS1 (m + u) m).b (zigS3 (m + u) m).a = -2 := by
    unfold area2 zigS1 zigS3; ring
  have a2 : area2 (zigS1 (m + u) m).a (zigS1 (m + u) m).b (zigS3 (m + u) m).b = u + 1 := by
    unfold area2 zigS1 zigS3; ring
  have a3 : area2 (zigS3 (m + u) m).a (zigS3 (m + u) m).b (zigS1 (m + u) m).a = 4 := by
    unfold area2 zigS1 zigS3; ring
  have a4 : area2 (zigS3 (m + u) m).a (zigS3 (m + u) m).b (zigS1 (m + u) m).b = 1 - u := by
    unfold area2 zigS1 zigS3; ring
  have sp := cross_spec (zigS1 (m + u) m) (zigS3 (m + u) m) (by unfold zigS1; simp) (by unfold zigS3; simp) 1
  have hc : cross (zigS1 (m + u) m) (zigS3 (m + u) m) 1 = some (middleCross (zigS1 (m + u) m) (zigS3 (m + u) m) 1) := by
    unfold cross clockDir
    rw [a1, a2, a3, a4]
    have t1 : (-2 : Int).sign = -1 := rfl
    have t2 : ((u : Int) + 1).sign = 1 := Int.sign_eq_one_of_pos (by omega)
    have t3 : (4 : Int).sign = 1 := rfl
    have t4 : ((1 : Int) - u).sign = -1 := Int.sign_eq_neg_one_of_neg (by omega)
    rw [t1, t2, t3, t4]
    rfl
  have hm : middleCross (zigS1 (m + u) m) (zigS3 (m + u) m) 1 = ⟨⟨m + 2, 1⟩, .pure, true⟩ := by
    unfold middleCross
    rw [hp]
    have l1 : isLine (zigS1 (m + u) m).a ⟨m + 2, 1⟩ (zigS1 (m + u) m).b = false := by
      rw [← Bool.not_eq_true, isLine_iff]
      unfold area2 zigS1
      intro h
      ring_nf at h
      omega
    simp only [l1, Bool.false_and, Bool.false_eq_true, if_false]
    rw [if_neg]
    have b1 : sqrDist (zigS1 (m + u) m).a ⟨m + 2, 1⟩ = 16 := by unfold sqrDist zigS1; ring
    have b2 : sqrDist (zigS3 (m + u) m).a ⟨m + 2, 1⟩ = 4 := by unfold sqrDist zigS3; ring
    have b3 : sqrDist (zigS1 (m + u) m).b ⟨m + 2, 1⟩ = (u - 2) * (u - 2) + 1 := by unfold sqrDist zigS1; ring
    have b4 : sqrDist (zigS3 (m + u) m).b ⟨m + 2, 1⟩ = (u - 1) * (u - 1) + 4 := by unfold sqrDist zigS3; ring
    rw [b1, b2, b3, b4]
    have : (6 : Int) ≤ u := by omega
    rintro (h | h | h | h)
    · omega
    · omega
    · nlinarith
    · nlinarith
  unfold crossMarks
  simp only
  rw [hc, hm]

/-! ### all other pairs -/

theorem zig_y {n m : Int} {s : XSeg} (h : s = zigB n ∨ s = zigS1 n m ∨ s = zigS2 n m ∨ s = zigS3 n m) {q : QPt}
    (hq : inSeg q s.a s.b) : q.y < 1 := by
  obtain ⟨t, t0, t1, -, hy⟩ := hq
  rcases h with rfl | rfl | rfl | rfl <;>
  · simp only [zigB, zigS1, zigS2, zigS3] at hy
    rw [hy]; push_cast; linarith

theorem zigH_y {m : Int} {s : XSeg} (h : zigH m s) {q : QPt} (hq : onSeg q s.a s.b) : q.y = 1 := by
  obtain ⟨t, t0, t1, -, hy⟩ := hq
  rw [hy, h.1, h.2.1]; push_cast; ring

/-- The ends of the edges. -/
def ZigEnd (n m : Int) (p : Pt) : Prop := (p.y = 1 ∧ 0 ≤ p.x ∧ p.x ≤ m) ∨ p = ⟨n, 0⟩ ∨ p = ⟨n + 1, -1⟩

theorem ZigShape.ends {n m : Int} (hm : 2 ≤ m) {s : XSeg} (h : ZigShape n m s) : ZigEnd n m s.a ∧ ZigEnd n m s.b := by
  rcases h with h | rfl | rfl | rfl | rfl
  · obtain ⟨h1, h2, h3, h4, h5⟩ := h
    exact ⟨Or.inl ⟨h1, h3, by omega⟩, Or.inl ⟨h2, by omega, h5⟩⟩
  all_goals simp only [zigB, zigS1, zigS2, zigS3, ZigEnd]; simp; omega

/-- An end inside an edge is on the line `y = 1`. -/
theorem zig_touch {n m : Int} (hm : 2 ≤ m) (hu : 6 ≤ n - m) {s : XSeg} (h : ZigShape n m s) {p : Pt} (hp : ZigEnd n m p)
    (hq : inSeg p.q s.a s.b) : zigH m s ∧ p.y = 1 ∧ 0 ≤ p.x ∧ p.x ≤ m := by
  have hb : (2 : ℚ) ≤ m := by exact_mod_cast hm
  have hb2 : (6 : ℚ) ≤ n - m := by exact_mod_cast hu
  rcases h with h | h
  · have := zigH_y h hq.on
    have hy : p.y = 1 := by simpa [Pt.q] using this
    refine ⟨h, hy, ?_⟩
    rcases hp with hp | rfl | rfl
    · exact hp.2
    · simp at hy
    · simp at hy
  · exfalso
    have h1 := zig_y h hq
    rcases hp with hp | hp | hp
    · rw [Pt.q] at h1; simp only [hp.1] at h1; norm_num at h1
    · subst hp
      obtain ⟨t, t0, t1, hx, hy⟩ := hq
      rcases h with rfl | rfl | rfl | rfl <;> simp only [zigB, zigS1, zigS2, zigS3, Pt.q] at hx hy <;> push_cast at hx hy
      · have : t = 1 / 2 := by linarith
        subst this; linarith
      · linarith
      · linarith
      · have : t = 1 / 2 := by linarith
        subst this; linarith
    · subst hp
      obtain ⟨t, t0, t1, hx, hy⟩ := hq
      rcases h with rfl | rfl | rfl | rfl <;> simp only [zigB, zigS1, zigS2, zigS3, Pt.q] at hx hy <;> push_cast at hx hy <;>
        linarith

/-- Only the first and the third edge cross. -/
theorem zig_apart {n m : Int} (hm : 2 ≤ m) (hu : 6 ≤ n - m) {s t : XSeg} (hs : ZigShape n m s) (ht : ZigShape n m t)
    (hn : ¬ AllOnLine s t) (h13 : ¬ (s = zigS1 n m ∧ t = zigS3 n m)) (h31 : ¬ (s = zigS3 n m ∧ t = zigS1 n m)) {q : QPt}
    (h1 : inSeg q s.a s.b) (h2 : inSeg q t.a t.b) : False := by
  have hb : (2 : ℚ) ≤ m := by exact_mod_cast hm
  have hb2 : (6 : ℚ) ≤ n - m := by exact_mod_cast hu
  have same : ∀ s : XSeg, AllOnLine s s := by
    intro s
    refine ⟨?_, ?_, ?_, ?_⟩ <;> unfold area2 <;> ring
  have par : ∀ s t : XSeg, zigH m s → zigH m t → AllOnLine s t := by
    intro s t h h'
    obtain ⟨a1, a2, -⟩ := h
    obtain ⟨b1, b2, -⟩ := h'
    refine ⟨?_, ?_, ?_, ?_⟩ <;> unfold area2 <;> simp only [a1, a2, b1, b2] <;> ring
  rcases hs with hs | hs <;> rcases ht with ht | ht
  · exact hn (par s t hs ht)
  · have := zigH_y hs h1.on
    have := zig_y ht h2
    linarith
  · have := zigH_y ht h2.on
    have := zig_y hs h1
    linarith
  · obtain ⟨a, a0, a1, ax, ay⟩ := h1
    obtain ⟨b, b0, b1, bx, bY⟩ := h2
    rw [ax] at bx
    rw [ay] at bY
    rcases hs with rfl | rfl | rfl | rfl <;> rcases ht with rfl | rfl | rfl | rfl <;>
      first
      | exact hn (same _)
      | exact h13 ⟨rfl, rfl⟩
      | exact h31 ⟨rfl, rfl⟩
      | (simp only [zigB, zigS1, zigS2, zigS3] at bx bY
         push_cast at bx bY
         nlinarith [mul_pos a0 b0, mul_pos (sub_pos.2 a1) (sub_pos.2 b1), mul_pos a0 (sub_pos.2 b1), mul_pos b0 (sub_pos.2 a1)])

/-! ### the marks of a round -/

/-- The marks an edge can get. -/
def ZigMark (n m : Int) (s : XSeg) (p : Pt) : Prop :=
  (zigH m s ∧ p.y = 1 ∧ 0 ≤ p.x ∧ p.x ≤ m) ∨ ((s = zigS1 n m ∨ s = zigS3 n m) ∧ p = ⟨m + 2, 1⟩)

theorem ZigShape.ne {n m : Int} (hm : 2 ≤ m) (hu : 6 ≤ n - m) {s : XSeg} (h : ZigShape n m s) : s.a < s.b := by
  rw [Pt.lt_def]
  rcases h with h | rfl | rfl | rfl | rfl
  · exact Or.inl h.2.2.2.1
  all_goals simp only [zigB, zigS1, zigS2, zigS3]; omega

theorem zig_pair {n m : Int} (hm : 2 ≤ m) (hu : 6 ≤ n - m) (hb : n - m < 2 ^ 31) {p : EPair} (hi : ZigShape n m p.ei)
    (hj : ZigShape n m p.ej) (h31 : ¬ (p.ei = zigS3 n m ∧ p.ej = zigS1 n m)) :
    ∀ k ∈ (crossMarks 1 p).1, (k.index = p.i ∧ ZigMark n m p.ei k.point) ∨ (k.index = p.j ∧ ZigMark n m p.ej k.point) := by
  by_cases h13 : p.ei = zigS1 n m ∧ p.ej = zigS3 n m
  · obtain ⟨i, j, ei, ej⟩ := p
    obtain ⟨rfl, rfl⟩ := h13
    rw [zig_cross hu hb]
    intro k hk
    simp only [List.mem_cons, List.not_mem_nil, or_false] at hk
    rcases hk with rfl | rfl
    · exact Or.inl ⟨rfl, Or.inr ⟨Or.inl rfl, rfl⟩⟩
    · exact Or.inr ⟨rfl, Or.inr ⟨Or.inr rfl, rfl⟩⟩
  · have sp := crossMarks_spec p (Pt.ne_of_lt (hi.ne hm hu)) (Pt.ne_of_lt (hj.ne hm hu)) (radius := 1) (by norm_num)
    generalize crossMarks 1 p = r at sp
    intro k hk
    have end_i : ∀ pt : Pt, pt = p.ej.a ∨ pt = p.ej.b → inSeg pt.q p.ei.a p.ei.b → ZigMark n m p.ei pt := by
      intro pt h1 h2
      refine Or.inl (zig_touch hm hu hi ?_ h2)
      rcases h1 with rfl | rfl
      exacts [(hj.ends hm).1, (hj.ends hm).2]
    have end_j : ∀ pt : Pt, pt = p.ei.a ∨ pt = p.ei.b → inSeg pt.q p.ej.a p.ej.b → ZigMark n m p.ej pt := by
      intro pt h1 h2
      refine Or.inl (zig_touch hm hu hj ?_ h2)
      rcases h1 with rfl | rfl
      exacts [(hi.ends hm).1, (hi.ends hm).2]
    cases sp with
    | none _ _ => simp at hk
    | endI pt _ h1 h2 =>
      simp only [List.mem_singleton] at hk; subst hk
      exact Or.inl ⟨rfl, end_i pt h1 h2⟩
    | endJ pt _ h1 h2 =>
      simp only [List.mem_singleton] at hk; subst hk
      exact Or.inr ⟨rfl, end_j pt h1 h2⟩
    | both pt h h1 h2 => exact absurd (zig_apart hm hu hi hj h h13 h31 h1 h2) id
    | round l h h1 _ _ _ =>
      obtain ⟨q, q1, q2⟩ := h1
      exact absurd (zig_apart hm hu hi hj h h13 h31 q1 q2) id
    | overlay l _ h =>
      rcases (h k).1 hk with ⟨h1, h2, h3⟩ | ⟨h1, h2, h3⟩
      · exact Or.inr ⟨h1, end_j _ h2 h3⟩
      · exact Or.inl ⟨h1, end_i _ h2 h3⟩

section
variable {n m : Int} (hm : 2 ≤ m) (hu : 6 ≤ n - m) (hb : n - m < 2 ^ 31) {segs : List (Seg CountBool)} (z : Zig n m segs)
include hm hu hb z

theorem Zig.lt : ∀ s ∈ segs, s.a < s.b := fun s hs => (z.shape s hs).ne hm hu

theorem Zig.covers : Covers (listPairs segs) segs := listPairs_covers segs (sorted_of_strict z.sorted) (z.lt hm hu hb)

/-- Edges with smaller index are smaller. -/
theorem Zig.order {i j : Nat} {s t : Seg CountBool} (hi : segs[i]? = some s) (hj : segs[j]? = some t) :
    s.lt t ↔ i < j := by
  obtain ⟨i1, rfl⟩ := List.getElem?_eq_some_iff.1 hi
  obtain ⟨j1, rfl⟩ := List.getElem?_eq_some_iff.1 hj
  have key := List.pairwise_iff_getElem.1 z.sorted
  constructor
  · intro h
    by_contra hc
    rcases Nat.lt_or_eq_of_le (not_lt.1 hc) with h' | h'
    · exact Seg.lt_irrefl _ (Seg.lt_trans h (key j i j1 i1 h'))
    · subst h'; exact Seg.lt_irrefl _ h
  · exact key i j i1 j1

theorem Zig.index {i j : Nat} {s t : Seg CountBool} (hi : segs[i]? = some s) (hj : segs[j]? = some t) (h : s.x = t.x) :
    i = j := by
  have e1 : s.a = t.a := congrArg XSeg.a h
  have e2 : s.b = t.b := congrArg XSeg.b h
  rcases Nat.lt_trichotomy i j with h' | h' | h'
  · exact absurd ((Seg.lt_congr rfl rfl e1.symm e2.symm).1 ((z.order hm hu hb hi hj).2 h')) (Seg.lt_irrefl s)
  · exact h'
  · exact absurd ((Seg.lt_congr rfl rfl e1 e2).1 ((z.order hm hu hb hj hi).2 h')) (Seg.lt_irrefl t)

theorem Zig.marks {k : Mark} (hk : k ∈ (roundMarks 1 (listPairs segs)).1) {s : Seg CountBool}
    (hs : segs[k.index]? = some s) : ZigMark n m s.x k.point := by
  obtain ⟨p, hp, hkp⟩ := List.mem_flatMap.1 hk
  obtain ⟨hij, ⟨s1, e1, e2⟩, ⟨s2, e3, e4⟩⟩ := (z.covers hm hu hb).sound p hp
  have m1 := z.shape s1 (List.mem_of_getElem? e1)
  have m2 := z.shape s2 (List.mem_of_getElem? e3)
  rw [← e2] at m1
  rw [← e4] at m2
  have h31 : ¬ (p.ei = zigS3 n m ∧ p.ej = zigS1 n m) := by
    rintro ⟨h1, h2⟩
    have hlt := (z.order hm hu hb e1 e3).2 hij
    rw [e2] at h1
    rw [e4] at h2
    have a1 : s1.a = ⟨m, 1⟩ := congrArg XSeg.a h1
    have a2 : s2.a = ⟨m - 2, 1⟩ := congrArg XSeg.a h2
    unfold Seg.lt at hlt
    rw [a1, a2, Pt.lt_def] at hlt
    simp only [Pt.mk.injEq] at hlt
    omega
  rcases zig_pair hm hu hb m1 m2 h31 k hkp with ⟨h1, h2⟩ | ⟨h1, h2⟩
  · rw [h1, e1] at hs
    obtain rfl := Option.some.inj hs
    rwa [e2] at h2
  · rw [h1, e3] at hs
    obtain rfl := Option.some.inj hs
    rwa [e4] at h2

/-- The round marks the first and third edge, with rounding. -/
theorem Zig.crossed {i j : Nat} {s t : Seg CountBool} (hi : segs[i]? = some s) (hj : segs[j]? = some t)
    (es : s.x = zigS1 n m) (et : t.x = zigS3 n m) :
    (⟨i, ⟨m + 2, 1⟩⟩ : Mark) ∈ (roundMarks 1 (listPairs segs)).1 ∧
    (⟨j, ⟨m + 2, 1⟩⟩ : Mark) ∈ (roundMarks 1 (listPairs segs)).1 ∧ (roundMarks 1 (listPairs segs)).2 = true := by
  have hx := zig_cross hu hb i j
  have hij : i < j := by
    rw [← z.order hm hu hb hi hj]
    have a1 : s.a = ⟨m - 2, 1⟩ := congrArg XSeg.a es
    have a2 : t.a = ⟨m, 1⟩ := congrArg XSeg.a et
    unfold Seg.lt
    rw [a1, a2, Pt.lt_def]
    left; left
    simp only; omega
  have hq : ∃ q, onSeg q s.a s.b ∧ onSeg q t.a t.b := by
    by_contra hc
    have := crossMarks_disjoint (p := ⟨i, j, zigS1 n m, zigS3 n m⟩) (radius := 1) (by unfold zigS1; simp) (by unfold zigS3; simp)
      (by norm_num) (fun q q1 q2 => hc ⟨q, by rw [← es] at q1; exact q1, by rw [← et] at q2; exact q2⟩)
    rw [hx] at this
    simp at this
  have hp := (z.covers hm hu hb).complete i j s t hij hi hj hq
  rw [es, et] at hp
  refine ⟨List.mem_flatMap.2 ⟨_, hp, by rw [hx]; simp⟩, List.mem_flatMap.2 ⟨_, hp, by rw [hx]; simp⟩, ?_⟩
  unfold roundMarks
  rw [List.any_eq_true]
  exact ⟨_, hp, by rw [hx]⟩


theorem Zig.mark_iff {i : Nat} {s : Seg CountBool} (hi : segs[i]? = some s) (es : s.x = zigS1 n m ∨ s.x = zigS3 n m) :
    pointsOf i (roundMarks 1 (listPairs segs)).1 = [⟨m + 2, 1⟩] := by
  refine ptSorted_ext (pointsOf_sorted _ _) (by simp) fun p => ?_
  rw [mem_pointsOf, List.mem_singleton]
  constructor
  · intro h
    rcases z.marks hm hu hb h hi with ⟨h1, -⟩ | ⟨-, h2⟩
    · exfalso
      obtain ⟨-, h2, -⟩ := h1
      rcases es with e | e <;> rw [e] at h2 <;> simp [zigS1, zigS3] at h2
    · exact h2
  · rintro rfl
    obtain ⟨s1, m1, e1⟩ := z.s1
    obtain ⟨s3, m3, e3⟩ := z.s3
    obtain ⟨i1, l1, rfl⟩ := List.mem_iff_getElem.1 m1
    obtain ⟨i3, l3, rfl⟩ := List.mem_iff_getElem.1 m3
    have hx := z.crossed hm hu hb (List.getElem?_eq_getElem l1) (List.getElem?_eq_getElem l3) e1 e3
    rcases es with e | e
    · rw [z.index hm hu hb hi (List.getElem?_eq_getElem l1) (e.trans e1.symm)]; exact hx.1
    · rw [z.index hm hu hb hi (List.getElem?_eq_getElem l3) (e.trans e3.symm)]; exact hx.2.1

theorem Zig.unmarked {i : Nat} {s : Seg CountBool} (hi : segs[i]? = some s) (es : s.x = zigB n ∨ s.x = zigS2 n m) :
    pointsOf i (roundMarks 1 (listPairs segs)).1 = [] := by
  rw [List.eq_nil_iff_forall_not_mem]
  intro p hp
  rw [mem_pointsOf] at hp
  rcases z.marks hm hu hb hp hi with ⟨h1, -⟩ | ⟨h2, -⟩
  · obtain ⟨-, h2, -⟩ := h1
    rcases es with e | e <;> rw [e] at h2 <;> simp [zigB, zigS2] at h2
  · rcases es with e | e <;> rw [e] at h2 <;> rcases h2 with h2 | h2 <;>
      simp [zigB, zigS1, zigS2, zigS3] at h2 <;> omega

/-- The pieces of the edges. -/
theorem Zig.pieces {i : Nat} {s : Seg CountBool} (hi : segs[i]? = some s) :
    (zigH m s.x ∧ ∀ e ∈ splitSeg (roundMarks 1 (listPairs segs)).1 i s, e.a.y = 1 ∧ e.b.y = 1 ∧ 0 ≤ e.a.x ∧
      e.b.x ≤ m) ∨
    (s.x = zigB n ∧ splitSeg (roundMarks 1 (listPairs segs)).1 i s = [s]) ∨
    (s.x = zigS2 n m ∧ splitSeg (roundMarks 1 (listPairs segs)).1 i s = [s]) ∨
    (s.x = zigS1 n m ∧ splitSeg (roundMarks 1 (listPairs segs)).1 i s =
      [⟨⟨m - 2, 1⟩, ⟨m + 2, 1⟩, s.c⟩, ⟨⟨m + 2, 1⟩, ⟨n, 0⟩, s.c⟩]) ∨
    (s.x = zigS3 n m ∧ splitSeg (roundMarks 1 (listPairs segs)).1 i s =
      [⟨⟨m, 1⟩, ⟨m + 2, 1⟩, s.c⟩, ⟨⟨m + 2, 1⟩, ⟨n + 1, -1⟩, s.c⟩]) := by
  have cv : ∀ (p q : Pt) (c : CountBool), p.x < q.x → createValidate p q c = ⟨p, q, c⟩ := by
    intro p q c h
    unfold createValidate
    rw [if_pos (Pt.lt_def.2 (Or.inl h))]
  rcases z.shape s (List.mem_of_getElem? hi) with h | h | h | h | h
  · left
    refine ⟨h, ?_⟩
    intro e he
    have hends : (fun p : Pt => p.y = 1 ∧ 0 ≤ p.x ∧ p.x ≤ m) e.a ∧ (fun p : Pt => p.y = 1 ∧ 0 ≤ p.x ∧ p.x ≤ m) e.b := by
      obtain ⟨h1, h2, h3, h4, h5⟩ := h
      have h1 : s.a.y = 1 := h1
      have h2 : s.b.y = 1 := h2
      have h3 : 0 ≤ s.a.x := h3
      have h4 : s.a.x < s.b.x := h4
      have h5 : s.b.x ≤ m := h5
      unfold splitSeg at he
      split at he
      · simp only [List.mem_singleton] at he; subst he
        exact ⟨⟨h1, h3, by omega⟩, ⟨h2, by omega, h5⟩⟩
      · rename_i q rest hq
        refine chainSegs_ends s.c s.b s.a _ (fun p : Pt => p.y = 1 ∧ 0 ≤ p.x ∧ p.x ≤ m) ⟨h1, h3, by omega⟩
          ⟨h2, by omega, h5⟩ ?_ e he
        intro p hp
        rw [(subSort_perm _ _ _ _).mem_iff, ← hq, mem_pointsOf] at hp
        rcases z.marks hm hu hb hp hi with ⟨-, k⟩ | ⟨k, -⟩
        · exact k
        · exfalso
          rcases k with k | k
          · have := congrArg (fun x : XSeg => x.b.y) k
            change s.b.y = 0 at this
            omega
          · have := congrArg (fun x : XSeg => x.b.y) k
            change s.b.y = -1 at this
            omega
    exact ⟨hends.1.1, hends.2.1, hends.1.2.1, hends.2.2.2⟩
  · right; left
    refine ⟨h, ?_⟩
    unfold splitSeg
    rw [z.unmarked hm hu hb hi (Or.inl h)]
  · right; right; right; left
    refine ⟨h, ?_⟩
    have ea : s.a = ⟨m - 2, 1⟩ := congrArg XSeg.a h
    have eb : s.b = ⟨n, 0⟩ := congrArg XSeg.b h
    unfold splitSeg
    rw [z.mark_iff hm hu hb hi (Or.inl h)]
    simp only [List.length_nil, subSort, List.takeWhile_nil, List.dropWhile_nil, List.reverse_singleton, ite_self,
      List.append_nil, chainSegs, ea, eb]
    rw [cv _ _ _ (by simp only; omega), cv _ _ _ (by simp only; omega)]
  · right; right; left
    refine ⟨h, ?_⟩
    unfold splitSeg
    rw [z.unmarked hm hu hb hi (Or.inr h)]
  · right; right; right; right
    refine ⟨h, ?_⟩
    have ea : s.a = ⟨m, 1⟩ := congrArg XSeg.a h
    have eb : s.b = ⟨n + 1, -1⟩ := congrArg XSeg.b h
    unfold splitSeg
    rw [z.mark_iff hm hu hb hi (Or.inr h)]
    simp only [List.length_nil, subSort, List.takeWhile_nil, List.dropWhile_nil, List.reverse_singleton, ite_self,
      List.append_nil, chainSegs, ea, eb]
    rw [cv _ _ _ (by simp only; omega), cv _ _ _ (by simp only; omega)]

/-- An edge of the next round exists if exactly one piece lies on it. -/
theorem Zig.next_mem {i : Nat} {s e : Seg CountBool} (hi : segs[i]? = some s) (x y : List (Seg CountBool))
    (hx : splitSeg (roundMarks 1 (listPairs segs)).1 i s = x ++ e :: y) (hc : e.c = s.c)
    (hxy : ∀ t ∈ x ++ y, ¬ (t.a = e.a ∧ t.b = e.b))
    (ho : ∀ j t, segs[j]? = some t → t.x ≠ s.x → ∀ f ∈ splitSeg (roundMarks 1 (listPairs segs)).1 j t,
      ¬ (f.a = e.a ∧ f.b = e.b)) : e ∈ applyMarks (roundMarks 1 (listPairs segs)).1 segs := by
  have hne : ∀ t ∈ splitAll (roundMarks 1 (listPairs segs)).1 0 segs, isNotEmpty t.c = true := by
    intro t ht
    obtain ⟨j, u, h1, h2⟩ := (mem_splitAll _ _ _ _).1 ht
    have hu' := z.nonempty u (List.mem_of_getElem? h1)
    unfold splitSeg at h2
    split at h2
    · simp only [List.mem_singleton] at h2; subst h2; exact hu'
    · exact chainSegs_nonempty countBool_invert_nonempty _ hu' _ _ _ t h2
  unfold applyMarks
  rw [mergeIfNeeded_mem _ (sortSegs_sorted _) (fun t ht => hne t ((sortSegs_perm _).mem_iff.1 ht)),
    keySum_perm (sortSegs_perm _)]
  refine ⟨?_, by rw [hc]; exact z.nonempty s (List.mem_of_getElem? hi)⟩
  symm
  refine keySum_splitAll _ 0 segs hi x y (by rw [Nat.zero_add]; exact hx) hxy ?_
  intro j t hj hji f hf
  rw [Nat.zero_add] at hf
  exact ho j t hj (fun h => hji (z.index hm hu hb hj hi h)) f hf

/-- One round moves two to the right. -/
theorem Zig.step : Zig n (m + 2) (applyMarks (roundMarks 1 (listPairs segs)).1 segs) := by
  have P := fun {i s} => @Zig.pieces n m hm hu hb segs z i s
  obtain ⟨s1, m1, e1⟩ := z.s1
  obtain ⟨s2, m2, e2⟩ := z.s2
  obtain ⟨s3, m3, e3⟩ := z.s3
  obtain ⟨i1, l1, rfl⟩ := List.mem_iff_getElem.1 m1
  obtain ⟨i2, l2, rfl⟩ := List.mem_iff_getElem.1 m2
  obtain ⟨i3, l3, rfl⟩ := List.mem_iff_getElem.1 m3
  have g1 := List.getElem?_eq_getElem l1
  have g2 := List.getElem?_eq_getElem l2
  have g3 := List.getElem?_eq_getElem l3
  have bH : ∀ {s : XSeg}, zigH m s → s.b.y = 1 := fun h => h.2.1
  have p1 : splitSeg (roundMarks 1 (listPairs segs)).1 i1 segs[i1] =
      [⟨⟨m - 2, 1⟩, ⟨m + 2, 1⟩, segs[i1].c⟩, ⟨⟨m + 2, 1⟩, ⟨n, 0⟩, segs[i1].c⟩] := by
    rcases P g1 with ⟨h, -⟩ | ⟨h, -⟩ | ⟨h, -⟩ | ⟨-, h⟩ | ⟨h, -⟩
    · have := bH h; rw [e1] at this; simp [zigS1] at this
    · rw [e1] at h; simp [zigS1, zigB] at h
    · rw [e1] at h; simp [zigS1, zigS2] at h
    · exact h
    · rw [e1] at h; simp [zigS1, zigS3] at h
  have p2 : splitSeg (roundMarks 1 (listPairs segs)).1 i2 segs[i2] = [segs[i2]] := by
    rcases P g2 with ⟨h, -⟩ | ⟨h, -⟩ | ⟨-, h⟩ | ⟨h, -⟩ | ⟨h, -⟩
    · have := bH h; rw [e2] at this; simp [zigS2] at this
    · rw [e2] at h; simp [zigS2, zigB] at h
    · exact h
    · rw [e2] at h; simp [zigS1, zigS2] at h; omega
    · rw [e2] at h; simp [zigS2, zigS3] at h
  have p3 : splitSeg (roundMarks 1 (listPairs segs)).1 i3 segs[i3] =
      [⟨⟨m, 1⟩, ⟨m + 2, 1⟩, segs[i3].c⟩, ⟨⟨m + 2, 1⟩, ⟨n + 1, -1⟩, segs[i3].c⟩] := by
    rcases P g3 with ⟨h, -⟩ | ⟨h, -⟩ | ⟨h, -⟩ | ⟨h, -⟩ | ⟨-, h⟩
    · have := bH h; rw [e3] at this; simp [zigS3] at this
    · rw [e3] at h; simp [zigS3, zigB] at h; omega
    · rw [e3] at h; simp [zigS3, zigS2] at h
    · rw [e3] at h; simp [zigS1, zigS3] at h
    · exact h
  have a2 : segs[i2].a = ⟨m, 1⟩ := congrArg XSeg.a e2
  have b2 : segs[i2].b = ⟨n, 0⟩ := congrArg XSeg.b e2
  refine ⟨applyMarks_sorted _ _, applyMarks_nonempty countBool_invert_nonempty _ _ z.nonempty, ?_, ?_, ?_, ?_⟩
  · intro e he
    have hlt := applyMarks_lt (z.lt hm hu hb) (z.covers hm hu hb) (radius := 1) (by norm_num) e he
    obtain ⟨e', h1, h2, h3⟩ := mergeIfNeeded_edges _ e he
    rw [(sortSegs_perm _).mem_iff] at h1
    obtain ⟨i, s, hi, h4⟩ := (mem_splitAll _ _ _ _).1 h1
    rw [Nat.zero_add] at h4
    have hex : e.x = e'.x := by unfold Seg.x; rw [h2, h3]
    rw [h2, h3] at hlt
    rw [hex]
    rcases P hi with ⟨-, h⟩ | ⟨hs, h⟩ | ⟨hs, h⟩ | ⟨hs, h⟩ | ⟨hs, h⟩
    · obtain ⟨k1, k2, k3, k4⟩ := h e' h4
      rw [Pt.lt_def] at hlt
      refine Or.inl ⟨k1, k2, k3, ?_, ?_⟩
      · change e'.a.x < e'.b.x; omega
      · change e'.b.x ≤ m + 2; omega
    · rw [h, List.mem_singleton] at h4; subst h4
      exact Or.inr (Or.inl hs)
    · rw [h, List.mem_singleton] at h4; subst h4
      refine Or.inr (Or.inr (Or.inl ?_))
      rw [hs]; simp [zigS1, zigS2]
    · rw [h] at h4
      simp only [List.mem_cons, List.not_mem_nil, or_false] at h4
      rcases h4 with rfl | rfl
      · left
        refine ⟨rfl, rfl, ?_, ?_, ?_⟩ <;> simp [Seg.x] <;> omega
      · exact Or.inr (Or.inr (Or.inr (Or.inl rfl)))
    · rw [h] at h4
      simp only [List.mem_cons, List.not_mem_nil, or_false] at h4
      rcases h4 with rfl | rfl
      · left
        refine ⟨rfl, rfl, ?_, ?_, ?_⟩ <;> simp [Seg.x] <;> omega
      · exact Or.inr (Or.inr (Or.inr (Or.inr rfl)))
  · refine ⟨segs[i2], z.next_mem hm hu hb g2 [] [] p2 rfl (by simp) ?_, by rw [e2]; simp [zigS1, zigS2]⟩
    intro j t hj hn f hf
    rw [a2, b2]
    rintro ⟨c1, c2⟩
    rcases P hj with ⟨-, h⟩ | ⟨hs, h⟩ | ⟨hs, h⟩ | ⟨hs, h⟩ | ⟨hs, h⟩
    · have := (h f hf).2.1; rw [c2] at this; simp at this
    · rw [h, List.mem_singleton] at hf; subst hf
      have : f.b = ⟨n + 1, -1⟩ := congrArg XSeg.b hs
      rw [c2] at this; simp at this
    · exact hn (hs.trans e2.symm)
    · rw [h] at hf; simp only [List.mem_cons, List.not_mem_nil, or_false] at hf
      rcases hf with rfl | rfl <;> simp at c1 c2
    · rw [h] at hf; simp only [List.mem_cons, List.not_mem_nil, or_false] at hf
      rcases hf with rfl | rfl <;> simp at c1 c2
  · refine ⟨⟨⟨m + 2, 1⟩, ⟨n, 0⟩, segs[i1].c⟩, z.next_mem hm hu hb g1 [⟨⟨m - 2, 1⟩, ⟨m + 2, 1⟩, segs[i1].c⟩] [] p1 rfl (by simp) ?_, rfl⟩
    intro j t hj hn f hf
    dsimp only
    rintro ⟨c1, c2⟩
    rcases P hj with ⟨-, h⟩ | ⟨hs, h⟩ | ⟨hs, h⟩ | ⟨hs, h⟩ | ⟨hs, h⟩
    · have := (h f hf).2.1; rw [c2] at this; simp at this
    · rw [h, List.mem_singleton] at hf; subst hf
      have : f.b = ⟨n + 1, -1⟩ := congrArg XSeg.b hs
      rw [c2] at this; simp at this
    · rw [h, List.mem_singleton] at hf; subst hf
      have : f.a = ⟨m, 1⟩ := congrArg XSeg.a hs
      rw [c1] at this; simp at this
    · exact hn (hs.trans e1.symm)
    · rw [h] at hf; simp only [List.mem_cons, List.not_mem_nil, or_false] at hf
      rcases hf with rfl | rfl <;> simp at c1 c2
  · refine ⟨⟨⟨m + 2, 1⟩, ⟨n + 1, -1⟩, segs[i3].c⟩, z.next_mem hm hu hb g3 [⟨⟨m, 1⟩, ⟨m + 2, 1⟩, segs[i3].c⟩] [] p3 rfl (by simp) ?_, rfl⟩
    intro j t hj hn f hf
    dsimp only
    rintro ⟨c1, c2⟩
    rcases P hj with ⟨-, h⟩ | ⟨hs, h⟩ | ⟨hs, h⟩ | ⟨hs, h⟩ | ⟨hs, h⟩
    · have := (h f hf).2.1; rw [c2] at this; simp at this
    · rw [h, List.mem_singleton] at hf; subst hf
      have : f.a = ⟨0, 1⟩ := congrArg XSeg.a hs
      rw [c1] at this; simp at this; omega
    · rw [h, List.mem_singleton] at hf; subst hf
      have : f.a = ⟨m, 1⟩ := congrArg XSeg.a hs
      rw [c1] at this; simp at this
    · rw [h] at hf; simp only [List.mem_cons, List.not_mem_nil, or_false] at hf
      rcases hf with rfl | rfl <;> simp at c1 c2
    · exact hn (hs.trans e3.symm)

end

/-! ### all rounds -/

theorem Zig.three {n m : Int} {segs : List (Seg CountBool)} (hm : 2 ≤ m) (hu : 6 ≤ n - m) (hb : n - m < 2 ^ 31)
    (z : Zig n m segs) : 3 ≤ segs.length := by
  obtain ⟨s1, m1, e1⟩ := z.s1
  obtain ⟨s2, m2, e2⟩ := z.s2
  obtain ⟨s3, m3, e3⟩ := z.s3
  have nd : ([s1, s2, s3] : List (Seg CountBool)).Nodup := by
    have h12 : s1 ≠ s2 := by
      rintro rfl; rw [e1] at e2; simp [zigS1, zigS2] at e2
    have h13 : s1 ≠ s3 := by
      rintro rfl; rw [e1] at e3; simp [zigS1, zigS3] at e3
    have h23 : s2 ≠ s3 := by
      rintro rfl; rw [e2] at e3; simp [zigS2, zigS3] at e3
    simp [h12, h13, h23]
  have hs : [s1, s2, s3] ⊆ segs := by
    intro x hx
    simp only [List.mem_cons, List.not_mem_nil, or_false] at hx
    rcases hx with rfl | rfl | rfl <;> assumption
  exact (nd.subperm hs).length_le

theorem Zig.rounds {n : Int} (hb : n < 2 ^ 31) (st : Strategy) {tree : TreeOracle CountBool} (ht : tree.Ok) :
    ∀ (N : Nat) (m : Int) (segs : List (Seg CountBool)) (mode : Mode), 2 ≤ m → 2 * N + m + 4 ≤ n → Zig n m segs →
      splitLoop st tree N mode ⟨0, 0⟩ segs = none := by
  intro N
  induction N with
  | zero => intros; rfl
  | succ N ih =>
    intro m segs mode hm hn z
    have hu : 6 ≤ n - m := by push_cast at hn; omega
    have hb' : n - m < 2 ^ 31 := by omega
    have h3 := z.three hm hu hb'
    obtain ⟨s1, m1, e1⟩ := z.s1
    obtain ⟨s3, m3, e3⟩ := z.s3
    obtain ⟨i1, l1, rfl⟩ := List.mem_iff_getElem.1 m1
    obtain ⟨i3, l3, rfl⟩ := List.mem_iff_getElem.1 m3
    obtain ⟨x1, x2, x3⟩ := z.crossed hm hu hb' (List.getElem?_eq_getElem l1) (List.getElem?_eq_getElem l3) e1 e3
    have hr : (⟨0, 0⟩ : SnapRadius).radius = 1 := rfl
    have hi : (⟨0, 0⟩ : SnapRadius).increment = ⟨0, 0⟩ := rfl
    have hne : (roundMarks 1 (listPairs segs)).1.isEmpty = false := by
      rw [← Bool.not_eq_true, List.isEmpty_iff]
      intro h; rw [h] at x1; simp at x1
    have nxt := fun mode => ih (m + 2) _ mode (by omega) (by push_cast at hn; omega) (z.step hm hu hb')
    cases mode with
    | list =>
      rw [splitLoop, if_neg (by omega)]
      simp only [hr, hne, x3, hi, Bool.false_eq_true, if_false, if_true]
      split
      · exact nxt .list
      · exact nxt .tree
    | tree =>
      rw [splitLoop]
      split
      · exact ih m segs .treeLoop hm (by push_cast at hn; omega) z
      · exact ih m segs .list hm (by push_cast at hn; omega) z
    | treeLoop =>
      have hl := z.lt hm hu hb'
      obtain ⟨c1, c2, c3⟩ := covers_round hl (ht segs z.sorted hl) (z.covers hm hu hb') (radius := 1) (by norm_num)
      rw [splitLoop, if_neg (by omega)]
      simp only [hr, c1, c2, c3, hne, x3, hi, Bool.false_eq_true, if_false, if_true]
      exact nxt .treeLoop

/-- The contour. -/
def zigzag (n : Int) : List Pt := [⟨0, 1⟩, ⟨n, 0⟩, ⟨2, 1⟩, ⟨n + 1, -1⟩]

theorem zigzag_segments {n : Int} (hn : 8 ≤ n) : (overlaySegments [zigzag n] [] : List (Seg CountBool)) =
    [⟨⟨2, 1⟩, ⟨n, 0⟩, ⟨-1, 0⟩⟩, ⟨⟨2, 1⟩, ⟨n + 1, -1⟩, ⟨1, 0⟩⟩, ⟨⟨0, 1⟩, ⟨n + 1, -1⟩, ⟨-1, 0⟩⟩, ⟨⟨0, 1⟩, ⟨n, 0⟩, ⟨1, 0⟩⟩] := by
  have nl : ∀ a b c : Pt, area2 a b c ≠ 0 → isLine a b c = false := by
    intro a b c h
    rw [← Bool.not_eq_true, isLine_iff]; exact h
  have l1 : isLine ⟨0, 1⟩ ⟨n, 0⟩ ⟨2, 1⟩ = false := nl _ _ _ (by unfold area2; ring_nf; omega)
  have l2 : isLine ⟨n, 0⟩ ⟨2, 1⟩ ⟨n + 1, -1⟩ = false := nl _ _ _ (by unfold area2; ring_nf; omega)
  have l3 : isLine ⟨2, 1⟩ ⟨n + 1, -1⟩ ⟨0, 1⟩ = false := nl _ _ _ (by unfold area2; ring_nf; omega)
  have l4 : isLine ⟨0, 1⟩ ⟨n, 0⟩ ⟨n + 1, -1⟩ = false := nl _ _ _ (by unfold area2; ring_nf; omega)
  have w1 : ∀ (p q : Pt) (c d : CountBool), p.x < q.x → withAB p q c d = ⟨p, q, c⟩ := by
    intro p q c d h; unfold withAB; rw [if_pos (Pt.lt_def.2 (Or.inl h))]
  have w2 : ∀ (p q : Pt) (c d : CountBool), q.x < p.x → withAB p q c d = ⟨q, p, d⟩ := by
    intro p q c d h; unfold withAB; rw [if_neg]
    rw [Pt.lt_def]; omega
  simp only [overlaySegments, zigzag, List.flatMap_cons, List.flatMap_nil, List.append_nil, appendContour, appendPath,
    skipLine, l1, mainLoop, l2, closePath, l3, l4, Bool.not_false, if_true, Bool.false_eq_true, if_false]
  rw [w2 _ _ _ _ (by simp only; omega), w1 _ _ _ _ (by simp only; omega), w2 _ _ _ _ (by simp only; omega),
    w1 _ _ _ _ (by simp only; omega)]
  rfl

theorem zigzag_start {n : Int} (hn : 8 ≤ n) :
    Zig n 2 (mergeIfNeeded (sortSegs (overlaySegments [zigzag n] [] : List (Seg CountBool)))) := by
  have e := zigzag_segments hn
  have hne : ∀ s ∈ (overlaySegments [zigzag n] [] : List (Seg CountBool)), isNotEmpty s.c = true := by
    rw [e]; intro s hs
    simp only [List.mem_cons, List.not_mem_nil, or_false] at hs
    rcases hs with rfl | rfl | rfl | rfl <;> rfl
  have hmem := mergeIfNeeded_mem (sortSegs (overlaySegments [zigzag n] [] : List (Seg CountBool))) (sortSegs_sorted _)
    (fun s hs => hne s ((sortSegs_perm _).mem_iff.1 hs))
  have k0 : (zero : CountBool) = ⟨0, 0⟩ := rfl
  refine ⟨start_sorted _, start_nonempty hne, ?_, ⟨⟨⟨0, 1⟩, ⟨n, 0⟩, ⟨1, 0⟩⟩, (hmem _).2 ⟨?_, rfl⟩, rfl⟩,
    ⟨⟨⟨2, 1⟩, ⟨n, 0⟩, ⟨-1, 0⟩⟩, (hmem _).2 ⟨?_, rfl⟩, rfl⟩, ⟨⟨⟨2, 1⟩, ⟨n + 1, -1⟩, ⟨1, 0⟩⟩, (hmem _).2 ⟨?_, rfl⟩, rfl⟩⟩
  · intro s hs
    obtain ⟨t, h1, h2, h3⟩ := mergeIfNeeded_edges _ s hs
    rw [(sortSegs_perm _).mem_iff, e] at h1
    have hx : s.x = t.x := by unfold Seg.x; rw [h2, h3]
    rw [hx]
    simp only [List.mem_cons, List.not_mem_nil, or_false] at h1
    rcases h1 with rfl | rfl | rfl | rfl
    · exact Or.inr (Or.inr (Or.inr (Or.inl rfl)))
    · exact Or.inr (Or.inr (Or.inr (Or.inr rfl)))
    · exact Or.inr (Or.inl rfl)
    · exact Or.inr (Or.inr (Or.inl rfl))
  all_goals
    rw [keySum_perm (sortSegs_perm _), e]
    simp only [keySum_cons, keySum_nil]
    simp
    rfl

end IOverlay
