/- Pairs, marks and chains of the splitting phase. -/
import Verif.SplitCross
import Verif.MergeLemmas

namespace IOverlay
open WindingCount
variable {C : Type}

/-- Contract of an enumeration of pairs: only genuine pairs `i < j`, and all pairs of edges with a
common point. For the list solver it is a theorem (`listPairs_covers`), for the external segment tree
an assumption. -/
structure Covers (pairs : List EPair) (segs : List (Seg C)) : Prop where
  sound : ∀ p ∈ pairs, p.i < p.j ∧ (∃ s, segs[p.i]? = some s ∧ p.ei = s.x) ∧
    (∃ s, segs[p.j]? = some s ∧ p.ej = s.x)
  complete : ∀ i j s t, i < j → segs[i]? = some s → segs[j]? = some t →
    (∃ q, onSeg q s.a s.b ∧ onSeg q t.a t.b) → (⟨i, j, s.x, t.x⟩ : EPair) ∈ pairs

theorem onSeg_bounds {q : QPt} {a b : Pt} (h : onSeg q a b) :
    ((min a.x b.x : Int) : ℚ) ≤ q.x ∧ q.x ≤ ((max a.x b.x : Int) : ℚ) ∧
    ((min a.y b.y : Int) : ℚ) ≤ q.y ∧ q.y ≤ ((max a.y b.y : Int) : ℚ) := by
  obtain ⟨t, h0, h1, hx, hy⟩ := h
  have key : ∀ (m k : Int) (v : ℚ), v = m + t * (k - m) →
      ((min m k : Int) : ℚ) ≤ v ∧ v ≤ ((max m k : Int) : ℚ) := by
    intro m k v hv
    rcases le_total m k with h | h
    · rw [min_eq_left h, max_eq_right h, hv]
      have h' : (m : ℚ) ≤ k := by exact_mod_cast h
      constructor <;> nlinarith
    · rw [min_eq_right h, max_eq_left h, hv]
      have h' : (k : ℚ) ≤ m := by exact_mod_cast h
      constructor <;> nlinarith
  exact ⟨(key _ _ _ hx).1, (key _ _ _ hx).2, (key _ _ _ hy).1, (key _ _ _ hy).2⟩

theorem ab_x_le {a b : Pt} (h : a < b) : a.x ≤ b.x := by rw [Pt.lt_def] at h; omega

theorem not_notIntersectY {e f : XSeg} {q : QPt} (he : onSeg q e.a e.b) (hf : onSeg q f.a f.b) :
    notIntersectY f (yRange e) = false := by
  obtain ⟨_, _, h1, h2⟩ := onSeg_bounds he
  obtain ⟨_, _, h3, h4⟩ := onSeg_bounds hf
  have g1 : min e.a.y e.b.y ≤ max f.a.y f.b.y := by exact_mod_cast h1.trans h4
  have g2 : min f.a.y f.b.y ≤ max e.a.y e.b.y := by exact_mod_cast h3.trans h2
  unfold notIntersectY yRange
  rw [Bool.or_eq_false_iff, Bool.and_eq_false_iff, Bool.and_eq_false_iff]
  simp only [decide_eq_false_iff_not]
  split <;> (dsimp only; omega)

theorem listScan_sound (i : Nat) (ei : XSeg) (j : Nat) (l : List (Seg C)) (p : EPair)
    (hp : p ∈ listScan i ei j l) :
    p.i = i ∧ p.ei = ei ∧ ∃ k s, p.j = j + k ∧ l[k]? = some s ∧ p.ej = s.x := by
  induction l generalizing j with
  | nil => simp [listScan] at hp
  | cons s rest ih =>
    unfold listScan at hp
    have rcs : p ∈ listScan i ei (j + 1) rest →
        p.i = i ∧ p.ei = ei ∧ ∃ k t, p.j = j + k ∧ (s :: rest)[k]? = some t ∧ p.ej = t.x := by
      intro h
      obtain ⟨a, b, k, t, c, d, e⟩ := ih _ h
      exact ⟨a, b, k + 1, t, by omega, by simpa using d, e⟩
    split at hp
    · simp at hp
    · split at hp
      · exact rcs hp
      · rcases List.mem_cons.1 hp with rfl | h
        · exact ⟨rfl, rfl, 0, s, rfl, by simp, rfl⟩
        · exact rcs h

theorem Seg.le_ax {s t : Seg C} (h : s.le t = true) : s.a.x ≤ t.a.x := by
  rw [Seg.le_iff] at h
  unfold Seg.lt at h
  rcases h with (h | h) | h
  · exact ab_x_le h
  · rw [h.1]
  · rw [h.1]

theorem listScan_complete (i : Nat) (s : Seg C) (hs : s.a < s.b) (j : Nat) (l : List (Seg C))
    (hsort : SortedSegs l) (hl : ∀ t ∈ l, t.a < t.b) (k : Nat) (t : Seg C) (hk : l[k]? = some t)
    (hq : ∃ q, onSeg q s.a s.b ∧ onSeg q t.a t.b) :
    (⟨i, j + k, s.x, t.x⟩ : EPair) ∈ listScan i s.x j l := by
  induction l generalizing j k with
  | nil => simp at hk
  | cons u rest ih =>
    unfold listScan
    have hm : t ∈ u :: rest := List.mem_of_getElem? hk
    obtain ⟨q, h1, h2⟩ := hq
    have hle : u.a.x ≤ t.a.x := by
      rcases List.mem_cons.1 hm with rfl | h
      · exact le_refl _
      · exact Seg.le_ax ((List.pairwise_cons.1 hsort).1 t h)
    have hnb : ¬ s.x.b.x < u.a.x := by
      have b1 := (onSeg_bounds h1).2.1
      have b2 := (onSeg_bounds h2).1
      have b3 : min t.a.x t.b.x ≤ max s.a.x s.b.x := by exact_mod_cast b2.trans b1
      have := ab_x_le hs
      have := ab_x_le (hl t hm)
      show ¬ s.b.x < u.a.x
      omega
    rw [if_neg hnb]
    cases k with
    | zero =>
      simp at hk; subst hk
      rw [not_notIntersectY (e := s.x) (f := u.x) h1 h2]
      simp
    | succ k =>
      have := ih (j + 1) (List.pairwise_cons.1 hsort).2 (fun t ht => hl t (List.mem_cons_of_mem _ ht)) k
        (by simpa using hk)
      rw [show j + 1 + k = j + (k + 1) by omega] at this
      split
      · exact this
      · exact List.mem_cons_of_mem _ this

theorem listPairsFrom_sound (i : Nat) (l : List (Seg C)) (p : EPair) (hp : p ∈ listPairsFrom i l) :
    ∃ k m s t, p.i = i + k ∧ p.j = i + m ∧ k < m ∧ l[k]? = some s ∧ p.ei = s.x ∧ l[m]? = some t ∧
      p.ej = t.x := by
  induction l generalizing i with
  | nil => simp [listPairsFrom] at hp
  | cons s rest ih =>
    rw [listPairsFrom, List.mem_append] at hp
    rcases hp with h | h
    · obtain ⟨a, b, k, t, c, d, e⟩ := listScan_sound _ _ _ _ _ h
      exact ⟨0, k + 1, s, t, by omega, by omega, by omega, by simp, b, by simpa using d, e⟩
    · obtain ⟨k, m, s', t, a, b, c, d, e, f, g⟩ := ih _ h
      exact ⟨k + 1, m + 1, s', t, by omega, by omega, by omega, by simpa using d, e, by simpa using f, g⟩

theorem listPairsFrom_complete (i : Nat) (l : List (Seg C)) (hsort : SortedSegs l)
    (hl : ∀ t ∈ l, t.a < t.b) (k m : Nat) (s t : Seg C) (hkm : k < m) (hk : l[k]? = some s)
    (hm : l[m]? = some t) (hq : ∃ q, onSeg q s.a s.b ∧ onSeg q t.a t.b) :
    (⟨i + k, i + m, s.x, t.x⟩ : EPair) ∈ listPairsFrom i l := by
  induction l generalizing i k m with
  | nil => simp at hk
  | cons u rest ih =>
    rw [listPairsFrom, List.mem_append]
    obtain ⟨m, rfl⟩ : ∃ m', m = m' + 1 := ⟨m - 1, by omega⟩
    cases k with
    | zero =>
      left
      simp at hk; subst hk
      have := listScan_complete i u (hl u (by simp)) (i + 1) rest (List.pairwise_cons.1 hsort).2
        (fun t ht => hl t (List.mem_cons_of_mem _ ht)) m t (by simpa using hm) hq
      rw [show i + 1 + m = i + (m + 1) by omega] at this
      simpa using this
    | succ k =>
      right
      have := ih (i + 1) (List.pairwise_cons.1 hsort).2
        (fun t ht => hl t (List.mem_cons_of_mem _ ht)) k m (by omega) (by simpa using hk)
        (by simpa using hm)
      rw [show i + 1 + k = i + (k + 1) by omega, show i + 1 + m = i + (m + 1) by omega] at this
      exact this

theorem listPairs_covers (l : List (Seg C)) (hsort : SortedSegs l) (hl : ∀ t ∈ l, t.a < t.b) :
    Covers (listPairs l) l := by
  constructor
  · intro p hp
    obtain ⟨k, m, s, t, a, b, c, d, e, f, g⟩ := listPairsFrom_sound 0 l p hp
    rw [Nat.zero_add] at a b
    exact ⟨by omega, ⟨s, by rw [a]; exact d, e⟩, ⟨t, by rw [b]; exact f, g⟩⟩
  · intro i j s t hij hi hj hq
    have := listPairsFrom_complete 0 l hsort hl i j s t hij hi hj hq
    rw [Nat.zero_add, Nat.zero_add] at this
    exact this

/-! ### marked points of one edge -/

theorem mem_insertPt (p q : Pt) (l : List Pt) : q ∈ insertPt p l ↔ q = p ∨ q ∈ l := by
  induction l with
  | nil => simp [insertPt]
  | cons x rest ih =>
    unfold insertPt
    split
    · simp
    · split
      · next h => subst h; simp
      · simp only [List.mem_cons, ih]; tauto

theorem insertPt_sorted (p : Pt) (l : List Pt) (h : l.Pairwise (· < ·)) :
    (insertPt p l).Pairwise (· < ·) := by
  induction l with
  | nil => simp [insertPt]
  | cons x rest ih =>
    obtain ⟨h1, h2⟩ := List.pairwise_cons.1 h
    unfold insertPt
    split
    · next hlt =>
      refine List.pairwise_cons.2 ⟨?_, h⟩
      intro y hy
      rcases List.mem_cons.1 hy with rfl | hy
      · exact hlt
      · exact Pt.lt_trans hlt (h1 y hy)
    · next hlt =>
      split
      · exact h
      · next hne =>
        refine List.pairwise_cons.2 ⟨?_, ih h2⟩
        intro y hy
        rcases (mem_insertPt _ _ _).1 hy with rfl | hy
        · exact Pt.lt_of_not_lt_ne hlt hne
        · exact h1 y hy

theorem foldr_insertPt_sorted (l : List Pt) : (l.foldr insertPt []).Pairwise (· < ·) := by
  induction l with
  | nil => exact List.Pairwise.nil
  | cons x rest ih => exact insertPt_sorted _ _ ih

theorem mem_foldr_insertPt (l : List Pt) (q : Pt) : q ∈ l.foldr insertPt [] ↔ q ∈ l := by
  induction l with
  | nil => simp
  | cons x rest ih => rw [List.foldr_cons, mem_insertPt, ih, List.mem_cons]

theorem pointsOf_sorted (i : Nat) (marks : List Mark) : (pointsOf i marks).Pairwise (· < ·) :=
  foldr_insertPt_sorted _

theorem mem_pointsOf (i : Nat) (marks : List Mark) (p : Pt) :
    p ∈ pointsOf i marks ↔ (⟨i, p⟩ : Mark) ∈ marks := by
  unfold pointsOf
  rw [mem_foldr_insertPt, List.mem_map]
  constructor
  · rintro ⟨⟨ix, pt⟩, hm, rfl⟩
    rw [List.mem_filter] at hm
    obtain ⟨h1, h2⟩ := hm
    simp at h2; subst h2; exact h1
  · intro h
    exact ⟨_, List.mem_filter.2 ⟨h, by simp⟩, rfl⟩

theorem ptSorted_ext {l l' : List Pt} (h : l.Pairwise (· < ·)) (h' : l'.Pairwise (· < ·))
    (he : ∀ p, p ∈ l ↔ p ∈ l') : l = l' := by
  induction l generalizing l' with
  | nil =>
    cases l' with
    | nil => rfl
    | cons x r => have := (he x).2 (by simp); simp at this
  | cons x r ih =>
    cases l' with
    | nil => have := (he x).1 (by simp); simp at this
    | cons y r' =>
      obtain ⟨h1, h2⟩ := List.pairwise_cons.1 h
      obtain ⟨h3, h4⟩ := List.pairwise_cons.1 h'
      have hxy : x = y := by
        rcases List.mem_cons.1 ((he x).1 (by simp)) with e | e
        · exact e
        · rcases List.mem_cons.1 ((he y).2 (by simp)) with e' | e'
          · exact e'.symm
          · exact absurd (h1 y e') (Pt.lt_asymm (h3 x e))
      subst hxy
      congr 1
      refine ih h2 h4 ?_
      intro p
      constructor
      · intro hp
        rcases List.mem_cons.1 ((he p).1 (List.mem_cons_of_mem _ hp)) with e | e
        · subst e; exact absurd (h1 p hp) (Pt.lt_irrefl _)
        · exact e
      · intro hp
        rcases List.mem_cons.1 ((he p).2 (List.mem_cons_of_mem _ hp)) with e | e
        · subst e; exact absurd (h3 p hp) (Pt.lt_irrefl _)
        · exact e

theorem pointsOf_congr {marks marks' : List Mark} (h : ∀ m, m ∈ marks ↔ m ∈ marks') (i : Nat) :
    pointsOf i marks = pointsOf i marks' :=
  ptSorted_ext (pointsOf_sorted _ _) (pointsOf_sorted _ _) fun p => by
    rw [mem_pointsOf, mem_pointsOf, h]

theorem splitAll_congr [WindingCount C] {marks marks' : List Mark} (h : ∀ m, m ∈ marks ↔ m ∈ marks')
    (k : Nat) (l : List (Seg C)) : splitAll marks k l = splitAll marks' k l := by
  induction l generalizing k with
  | nil => rfl
  | cons s rest ih => rw [splitAll, splitAll, ih, splitSeg, splitSeg, pointsOf_congr h]

/-- Only the set of marks matters. -/
theorem applyMarks_congr [WindingCount C] {marks marks' : List Mark} (h : ∀ m, m ∈ marks ↔ m ∈ marks')
    (l : List (Seg C)) : applyMarks marks l = applyMarks marks' l := by
  rw [applyMarks, applyMarks, splitAll_congr h]

/-! ### order of the marks of one edge -/

theorem subSort_perm (n : Nat) (y0 : Int) (b : Pt) (l : List Pt) : (subSort n y0 b l).Perm l := by
  induction n generalizing y0 l with
  | zero => exact List.Perm.refl _
  | succ n ih =>
    cases l with
    | nil => exact List.Perm.refl _
    | cons p rest =>
      unfold subSort
      dsimp only
      have e : p :: rest = (p :: rest.takeWhile fun q => q.x == p.x) ++
          rest.dropWhile fun q => q.x == p.x := by
        rw [List.cons_append, List.takeWhile_append_dropWhile]
      conv_rhs => rw [e]
      have key : ∀ (c : Prop) [Decidable c] (r : List Pt), (if c then r.reverse else r).Perm r := by
        intro c _ r
        split
        · exact List.reverse_perm _
        · exact List.Perm.refl _
      exact List.Perm.append (key _ _) (ih _ _)

theorem subSort_of_distinct_x (n : Nat) (y0 : Int) (b : Pt) (l : List Pt)
    (h : l.Pairwise fun p q => p.x ≠ q.x) : subSort n y0 b l = l := by
  induction n generalizing y0 l with
  | zero => rfl
  | succ n ih =>
    cases l with
    | nil => rfl
    | cons p rest =>
      obtain ⟨h1, h2⟩ := List.pairwise_cons.1 h
      have ht : (rest.takeWhile fun q => q.x == p.x) = [] := by
        cases rest with
        | nil => rfl
        | cons r rs =>
          have := h1 r (by simp)
          rw [List.takeWhile_cons, if_neg]
          simp only [beq_iff_eq]; exact fun e => this e.symm
      have hd : (rest.dropWhile fun q => q.x == p.x) = rest := by
        have := List.takeWhile_append_dropWhile (p := fun q : Pt => q.x == p.x) (l := rest)
        rw [ht] at this; exact this
      unfold subSort
      simp only [ht, hd]
      split <;> simp [ih _ _ h2]

theorem subSort_vertical (n : Nat) (a b : Pt) (l : List Pt) (hy : a.y ≤ b.y)
    (h : ∀ p ∈ l, p.x = a.x) : subSort n a.y b l = l := by
  cases n with
  | zero => rfl
  | succ n =>
    cases l with
    | nil => rfl
    | cons p rest =>
      have ht : (rest.takeWhile fun q => q.x == p.x) = rest := by
        have hall : ∀ q ∈ rest, (q.x == p.x) = true := by
          intro q hq
          rw [h p (by simp), h q (List.mem_cons_of_mem _ hq)]; simp
        clear h
        induction rest with
        | nil => rfl
        | cons r rs ih =>
          rw [List.takeWhile_cons, if_pos (hall r (by simp)),
            ih (fun q hq => hall q (List.mem_cons_of_mem _ hq))]
      have hd : (rest.dropWhile fun q => q.x == p.x) = [] := by
        have := List.takeWhile_append_dropWhile (p := fun q : Pt => q.x == p.x) (l := rest)
        rw [ht] at this
        simpa using this
      unfold subSort
      simp only [ht, hd]
      rw [if_neg (by omega)]
      cases n <;> simp [subSort]

/-! ### points on an edge and the lexicographic order -/

theorem param_lt {a b p p' : Pt} (hab : a < b) {t u : ℚ} (h : atParam p.q a b t) (h' : atParam p'.q a b u) :
    p < p' ↔ t < u := by
  obtain ⟨hx, hy⟩ := h
  obtain ⟨hx', hy'⟩ := h'
  simp only [Pt.q] at hx hy hx' hy'
  have cx : p.x < p'.x ↔ (p.x : ℚ) < p'.x := by norm_cast
  have cy : p.y < p'.y ↔ (p.y : ℚ) < p'.y := by norm_cast
  have ce : p.x = p'.x ↔ (p.x : ℚ) = p'.x := by norm_cast
  rw [Pt.lt_def, cx, cy, ce, hx, hx', hy, hy']
  rw [Pt.lt_def] at hab
  rcases hab with hab | ⟨hab, hab'⟩
  · have d : (0 : ℚ) < b.x - a.x := by have : (a.x : ℚ) < b.x := by exact_mod_cast hab
                                       linarith
    constructor
    · rintro (h | ⟨h, h'⟩)
      · by_contra hc
        have := mul_le_mul_of_nonneg_right (not_lt.1 hc) d.le
        linarith
      · have : t * ((b.x : ℚ) - a.x) = u * (b.x - a.x) := by linarith
        have := mul_right_cancel₀ d.ne' this
        subst this; linarith
    · intro h
      left
      have := mul_lt_mul_of_pos_right h d
      linarith
  · have e : ((b.x : ℚ) - a.x) = 0 := by rw [hab]; ring
    have d : (0 : ℚ) < b.y - a.y := by have : (a.y : ℚ) < b.y := by exact_mod_cast hab'
                                       linarith
    rw [e]
    constructor
    · rintro (h | ⟨h, h'⟩)
      · linarith
      · by_contra hc
        have := mul_le_mul_of_nonneg_right (not_lt.1 hc) d.le
        linarith
    · intro h
      right
      refine ⟨by ring, ?_⟩
      have := mul_lt_mul_of_pos_right h d
      linarith

theorem inSeg_lt {a b p : Pt} (hab : a < b) (h : inSeg p.q a b) : a < p ∧ p < b := by
  obtain ⟨t, h0, h1, hp⟩ := h
  exact ⟨(param_lt hab (atParam_left a b) hp).2 h0, (param_lt hab hp (atParam_right a b)).2 h1⟩

theorem onSeg_le {a b p : Pt} (hab : a < b) (h : onSeg p.q a b) : ¬ p < a ∧ ¬ b < p := by
  rcases onSeg_cases h with h | h | h
  · rw [Pt.q_inj h]; exact ⟨Pt.lt_irrefl _, Pt.lt_asymm hab⟩
  · rw [Pt.q_inj h]; exact ⟨Pt.lt_asymm hab, Pt.lt_irrefl _⟩
  · obtain ⟨h1, h2⟩ := inSeg_lt hab h
    exact ⟨Pt.lt_asymm h1, Pt.lt_asymm h2⟩

/-- Exact marks are left in lexicographic order. -/
theorem subSort_exact (n : Nat) {a b : Pt} (hab : a < b) (l : List Pt) (hs : l.Pairwise (· < ·))
    (hl : ∀ p ∈ l, inSeg p.q a b) : subSort n a.y b l = l := by
  have hab' := hab
  rw [Pt.lt_def] at hab'
  rcases hab' with h | ⟨h, h'⟩
  · apply subSort_of_distinct_x
    refine List.Pairwise.imp_of_mem ?_ hs
    intro p q hp hq hpq e
    obtain ⟨t, _, _, ht⟩ := hl p hp
    obtain ⟨u, _, _, hu⟩ := hl q hq
    have htu := (param_lt hab ht hu).1 hpq
    have d : (0 : ℚ) < b.x - a.x := by
      have : (a.x : ℚ) < b.x := by exact_mod_cast h
      linarith
    have e' : (p.x : ℚ) = q.x := by exact_mod_cast e
    have h1 := ht.1
    have h2 := hu.1
    simp only [Pt.q] at h1 h2
    rw [h1, h2] at e'
    have := mul_lt_mul_of_pos_right htu d
    linarith
  · apply subSort_vertical _ _ _ _ h'.le
    intro p hp
    obtain ⟨t, _, _, ht, _⟩ := hl p hp
    simp only [Pt.q] at ht
    rw [h] at ht
    have : (p.x : ℚ) = b.x := by rw [ht]; ring
    rw [h]; exact_mod_cast this

/-! ### chains -/

theorem createValidate_sum [WindingCount C] {φ : C → Int} (hφ : IsComp φ) (g : Pt → Pt → Int)
    (hg : ∀ u v, g v u = - g u v) (u v : Pt) (c : C) :
    φ (createValidate u v c).c * g (createValidate u v c).a (createValidate u v c).b = φ c * g u v := by
  unfold createValidate
  split
  · rfl
  · dsimp only; rw [hφ.invert, hg]; ring

/-- Sum of `g` over consecutive points. -/
def pathSum (g : Pt → Pt → Int) (b : Pt) : Pt → List Pt → Int
  | p, [] => g p b
  | p, m :: rest => g p m + pathSum g b m rest

theorem chainSegs_sum [WindingCount C] {φ : C → Int} (hφ : IsComp φ) (g : Pt → Pt → Int)
    (hg : ∀ u v, g v u = - g u v) (c : C) (b p : Pt) (l : List Pt) :
    segSum φ g (chainSegs c b p l) = φ c * pathSum g b p l := by
  induction l generalizing p with
  | nil => simp [chainSegs, pathSum, createValidate_sum hφ g hg]
  | cons m rest ih =>
    simp only [chainSegs, segSum_cons, createValidate_sum hφ g hg, ih, pathSum]; ring

theorem pathSum_potential (f : Pt → Int) (b p : Pt) (l : List Pt) :
    pathSum (fun u v => f u - f v) b p l = f p - f b := by
  induction l generalizing p with
  | nil => rfl
  | cons m rest ih => rw [pathSum, ih]; ring

theorem area2_of_inSeg {a b p : Pt} (h : onSeg p.q a b) : area2 a b p = 0 := by
  obtain ⟨t, _, _, ht⟩ := h
  have := qarea_self ht
  rw [qarea_q] at this
  exact_mod_cast this

theorem line_of_line {a b u v : Pt} (hab : a ≠ b) (hu : area2 a b u = 0) (hv : area2 a b v = 0) :
    area2 u v b = 0 := by
  have hab' : (b.y - a.y ≠ 0) ∨ (-(b.x - a.x) ≠ 0) := by rw [ne_eq, Pt.ext_iff'] at hab; omega
  unfold area2 at hu hv
  refine area2_of_line (a := b.y - a.y) (b := -(b.x - a.x))
    (c := (b.y - a.y) * a.x - (b.x - a.x) * a.y) hab' ?_ ?_ ?_
  · linear_combination hu
  · linear_combination hv
  · ring

theorem pathSum_wind {a b : Pt} (hab : a ≠ b) (q : QPt) (p : Pt) (hp : area2 a b p = 0) (l : List Pt)
    (hl : ∀ m ∈ l, area2 a b m = 0) :
    pathSum (fun u v => edgeWind u v q) b p l = edgeWind p b q := by
  induction l generalizing p with
  | nil => rfl
  | cons m rest ih =>
    have hm := hl m (by simp)
    rw [pathSum, ih m hm (fun x hx => hl x (List.mem_cons_of_mem _ hx))]
    exact edgeWind_add (line_of_line hab hp hm) q

theorem mem_splitAll [WindingCount C] (marks : List Mark) (k : Nat) (l : List (Seg C)) (e : Seg C) :
    e ∈ splitAll marks k l ↔ ∃ i s, l[i]? = some s ∧ e ∈ splitSeg marks (k + i) s := by
  induction l generalizing k with
  | nil => simp [splitAll]
  | cons s rest ih =>
    rw [splitAll, List.mem_append, ih]
    constructor
    · rintro (h | ⟨i, t, h1, h2⟩)
      · exact ⟨0, s, by simp, h⟩
      · exact ⟨i + 1, t, by simpa using h1, by rw [show k + (i + 1) = k + 1 + i by omega]; exact h2⟩
    · rintro ⟨i, t, h1, h2⟩
      cases i with
      | zero => simp at h1; subst h1; exact Or.inl h2
      | succ i =>
        exact Or.inr ⟨i, t, by simpa using h1, by
          rw [show k + 1 + i = k + (i + 1) by omega]; exact h2⟩

theorem chainSegs_lt [WindingCount C] (c : C) (b p : Pt) (l : List Pt) (hp : p ∉ l) (hpb : p ≠ b)
    (hl : l.Nodup) (hb : b ∉ l) : ∀ e ∈ chainSegs c b p l, e.a < e.b := by
  have cv : ∀ u v : Pt, u ≠ v → (createValidate u v c).a < (createValidate u v c).b := by
    intro u v h
    unfold createValidate
    split
    · assumption
    · next h' => exact Pt.lt_of_not_lt_ne h' h
  induction l generalizing p with
  | nil => intro e he; simp [chainSegs] at he; subst he; exact cv _ _ hpb
  | cons m rest ih =>
    intro e he
    obtain ⟨h1, h2⟩ := List.nodup_cons.1 hl
    simp only [List.mem_cons, not_or] at hp hb
    rcases List.mem_cons.1 he with rfl | he
    · exact cv _ _ hp.1
    · exact ih m h1 (fun e => hb.1 e.symm) h2 hb.2 e he

/-- Marks that differ from the ends of their edges give non-degenerate pieces. -/
theorem splitAll_lt [WindingCount C] (marks : List Mark) (l : List (Seg C)) (hl : ∀ s ∈ l, s.a < s.b)
    (hm : ∀ m ∈ marks, ∀ s, l[m.index]? = some s → m.point ≠ s.a ∧ m.point ≠ s.b) :
    ∀ e ∈ splitAll marks 0 l, e.a < e.b := by
  intro e he
  obtain ⟨i, s, h1, h2⟩ := (mem_splitAll _ _ _ _).1 he
  rw [Nat.zero_add] at h2
  have hs := hl s (List.mem_of_getElem? h1)
  unfold splitSeg at h2
  split at h2
  · simp at h2; subst h2; exact hs
  · next m rest hpts =>
    have hperm := subSort_perm (rest.length + 1) s.a.y s.b (m :: rest)
    have hmem : ∀ x, x ∈ subSort (rest.length + 1) s.a.y s.b (m :: rest) → x ≠ s.a ∧ x ≠ s.b := by
      intro x hx
      rw [hperm.mem_iff, ← hpts, mem_pointsOf] at hx
      exact hm _ hx s h1
    have hnd : (m :: rest).Nodup := by
      rw [← hpts]
      exact (pointsOf_sorted i marks).imp fun h => Pt.ne_of_lt h
    exact chainSegs_lt _ _ _ _ (fun h => (hmem _ h).1 rfl) (Pt.ne_of_lt hs) (hperm.nodup_iff.2 hnd)
      (fun h => (hmem _ h).2 rfl) e h2

theorem splitSeg_sum [WindingCount C] {φ : C → Int} (hφ : IsComp φ) (g : Pt → Pt → Int)
    (hg : ∀ u v, g v u = - g u v) (marks : List Mark) (i : Nat) (s : Seg C)
    (hadd : ∀ l : List Pt, (∀ p ∈ l, (⟨i, p⟩ : Mark) ∈ marks) → pathSum g s.b s.a l = g s.a s.b) :
    segSum φ g (splitSeg marks i s) = φ s.c * g s.a s.b := by
  unfold splitSeg
  split
  · simp
  · next m rest hpts =>
    rw [chainSegs_sum hφ g hg, hadd]
    intro p hp
    rw [(subSort_perm _ _ _ _).mem_iff, ← hpts, mem_pointsOf] at hp
    exact hp

theorem splitAll_sum [WindingCount C] {φ : C → Int} (hφ : IsComp φ) (g : Pt → Pt → Int)
    (hg : ∀ u v, g v u = - g u v) (marks : List Mark) (k : Nat) (l : List (Seg C))
    (hadd : ∀ i s, l[i]? = some s → ∀ pts : List Pt, (∀ p ∈ pts, (⟨k + i, p⟩ : Mark) ∈ marks) →
      pathSum g s.b s.a pts = g s.a s.b) :
    segSum φ g (splitAll marks k l) = segSum φ g l := by
  induction l generalizing k with
  | nil => rfl
  | cons s rest ih =>
    rw [splitAll, segSum_append, segSum_cons, splitSeg_sum hφ g hg, ih]
    · intro i t h pts hp
      exact hadd (i + 1) t (by simpa using h) pts (by
        intro p h'; rw [show k + (i + 1) = k + 1 + i by omega]; exact hp p h')
    · intro pts hp
      exact hadd 0 s (by simp) pts hp

theorem applyMarks_sum [WindingCount C] {φ : C → Int} (hφ : IsComp φ) (g : Pt → Pt → Int)
    (hg : ∀ u v, g v u = - g u v) (marks : List Mark) (l : List (Seg C))
    (hadd : ∀ i s, l[i]? = some s → ∀ pts : List Pt, (∀ p ∈ pts, (⟨i, p⟩ : Mark) ∈ marks) →
      pathSum g s.b s.a pts = g s.a s.b) :
    segSum φ g (applyMarks marks l) = segSum φ g l := by
  rw [applyMarks, mergeIfNeeded_segSum hφ, segSum_perm _ _ (sortSegs_perm _)]
  apply splitAll_sum hφ g hg
  intro i s h pts hp
  rw [Nat.zero_add] at hp
  exact hadd i s h pts hp

end IOverlay
