/-
Edges in two boxes apart from each other: splitting treats the two groups independently, round by round.
-/
import Verif.FragRound
import Verif.Box
import Verif.Props.Split

namespace IOverlay
variable {C : Type}

/-! ### marks of a pair, whatever its indices -/

/-- The marks of a pair with other numbers. -/
theorem crossMarks_renum (radius : Int) (i j : Nat) (e f : XSeg) :
    crossMarks radius ⟨i, j, e, f⟩ =
      ((crossMarks radius ⟨0, 1, e, f⟩).1.map fun m => ⟨if m.index = 0 then i else j, m.point⟩, (crossMarks radius ⟨0, 1, e, f⟩).2) := by
  unfold crossMarks
  dsimp only
  cases cross e f radius with
  | none => rfl
  | some r =>
    dsimp only
    cases r.type with
    | pure => rfl
    | targetEnd => rfl
    | otherEnd => rfl
    | overlay =>
      dsimp only
      split
      · rfl
      · generalize collinear e f = m
        obtain ⟨a, b, c, d⟩ := m
        cases a <;> cases b <;> cases c <;> cases d <;> rfl

theorem crossMarks_index (radius : Int) (e f : XSeg) {m : Mark} (hm : m ∈ (crossMarks radius ⟨0, 1, e, f⟩).1) :
    m.index = 0 ∨ m.index = 1 := by
  rw [crossMarks_renum] at hm
  obtain ⟨n, -, rfl⟩ := List.mem_map.1 hm
  dsimp only
  split
  · exact Or.inl rfl
  · exact Or.inr rfl

theorem mem_renum_left (radius : Int) {i j : Nat} (hij : i ≠ j) (e f : XSeg) (p : Pt) :
    (⟨i, p⟩ : Mark) ∈ (crossMarks radius ⟨i, j, e, f⟩).1 ↔ (⟨0, p⟩ : Mark) ∈ (crossMarks radius ⟨0, 1, e, f⟩).1 := by
  rw [crossMarks_renum, List.mem_map]
  constructor
  · rintro ⟨n, hn, h⟩
    rw [Mark.mk.injEq] at h
    obtain ⟨h1, rfl⟩ := h
    rcases crossMarks_index radius e f hn with h | h
    · obtain ⟨ix, pt⟩ := n; dsimp only at h; subst h; exact hn
    · rw [h] at h1; exact absurd h1.symm hij
  · intro h
    exact ⟨_, h, rfl⟩

theorem mem_renum_right (radius : Int) {i j : Nat} (hij : i ≠ j) (e f : XSeg) (p : Pt) :
    (⟨j, p⟩ : Mark) ∈ (crossMarks radius ⟨i, j, e, f⟩).1 ↔ (⟨1, p⟩ : Mark) ∈ (crossMarks radius ⟨0, 1, e, f⟩).1 := by
  rw [crossMarks_renum, List.mem_map]
  constructor
  · rintro ⟨n, hn, h⟩
    rw [Mark.mk.injEq] at h
    obtain ⟨h1, rfl⟩ := h
    rcases crossMarks_index radius e f hn with h | h
    · rw [h] at h1; exact absurd h1 hij
    · obtain ⟨ix, pt⟩ := n; dsimp only at h; subst h; exact hn
  · intro h
    exact ⟨_, h, rfl⟩

/-! ### the cuts of an edge -/

/-- The edge `t` cuts `s` in `p` (in a round with this radius). -/
def Cuts (radius : Int) (s t : Seg C) (p : Pt) : Prop :=
  (s.lt t ∧ (⟨0, p⟩ : Mark) ∈ (crossMarks radius ⟨0, 1, s.x, t.x⟩).1) ∨
  (t.lt s ∧ (⟨1, p⟩ : Mark) ∈ (crossMarks radius ⟨0, 1, t.x, s.x⟩).1)

theorem strict_index {l : List (Seg C)} (hs : l.Pairwise Seg.lt) {i j : Nat} {s t : Seg C} (h1 : l[i]? = some s)
    (h2 : l[j]? = some t) : s.lt t ↔ i < j := by
  obtain ⟨l1, rfl⟩ := List.getElem?_eq_some_iff.1 h1
  obtain ⟨l2, rfl⟩ := List.getElem?_eq_some_iff.1 h2
  constructor
  · intro h
    rcases Nat.lt_trichotomy i j with g | g | g
    · exact g
    · subst g; exact absurd h (Seg.lt_irrefl _)
    · exact absurd (Seg.lt_trans h (List.pairwise_iff_getElem.1 hs _ _ l2 l1 g)) (Seg.lt_irrefl _)
  · exact List.pairwise_iff_getElem.1 hs _ _ l1 l2

/-- The marks on an edge are its cuts. -/
theorem mem_points_iff {l : List (Seg C)} (hs : l.Pairwise Seg.lt) (hl : ∀ s ∈ l, s.a < s.b) {radius : Int} (hr : 0 ≤ radius)
    {i : Nat} {s : Seg C} (hi : l[i]? = some s) (p : Pt) :
    p ∈ pointsOf i (roundMarks radius (listPairs l)).1 ↔ ∃ t ∈ l, Cuts radius s t p := by
  rw [mem_pointsOf, (roundMarks_iff hl (listPairs_covers l (sorted_of_strict hs) hl) hr).1]
  constructor
  · rintro ⟨a, b, u, t, hab, h1, h2, hm⟩
    have hidx : i = a ∨ i = b := by
      rw [crossMarks_renum] at hm
      obtain ⟨n, -, h⟩ := List.mem_map.1 hm
      rw [Mark.mk.injEq] at h
      have := h.1
      split at this
      · exact Or.inl this.symm
      · exact Or.inr this.symm
    rcases hidx with rfl | rfl
    · rw [hi] at h1
      obtain rfl := Option.some.inj h1
      exact ⟨t, List.mem_of_getElem? h2, Or.inl ⟨(strict_index hs hi h2).2 hab, (mem_renum_left radius hab.ne _ _ _).1 hm⟩⟩
    · rw [hi] at h2
      obtain rfl := Option.some.inj h2
      exact ⟨u, List.mem_of_getElem? h1, Or.inr ⟨(strict_index hs h1 hi).2 hab, (mem_renum_right radius hab.ne _ _ _).1 hm⟩⟩
  · rintro ⟨t, ht, h⟩
    obtain ⟨j, hj⟩ := List.mem_iff_getElem?.1 ht
    rcases h with ⟨h1, h2⟩ | ⟨h1, h2⟩
    · have hij := (strict_index hs hi hj).1 h1
      exact ⟨i, j, s, t, hij, hi, hj, (mem_renum_left radius hij.ne _ _ _).2 h2⟩
    · have hij := (strict_index hs hj hi).1 h1
      exact ⟨j, i, t, s, hij, hj, hi, (mem_renum_right radius hij.ne _ _ _).2 h2⟩

/-- The pieces of an edge with given marked points. -/
def piecesAt [WindingCount C] (pts : List Pt) (s : Seg C) : List (Seg C) :=
  match pts with
  | [] => [s]
  | m :: rest => chainSegs s.c s.b s.a (subSort (rest.length + 1) s.a.y s.b (m :: rest))

theorem splitSeg_piecesAt [WindingCount C] (marks : List Mark) (i : Nat) (s : Seg C) :
    splitSeg marks i s = piecesAt (pointsOf i marks) s := rfl

theorem splitAll_filter [WindingCount C] (F : Seg C → Bool) (marks : List Mark) (f : Seg C → List (Seg C)) :
    ∀ (l : List (Seg C)) (k : Nat),
      (∀ i s, l[i]? = some s → (splitSeg marks (k + i) s).filter F = if F s then f s else []) →
      (splitAll marks k l).filter F = (l.filter F).flatMap f := by
  intro l
  induction l with
  | nil => intro k _; rfl
  | cons s l ih =>
    intro k h
    rw [splitAll, List.filter_append, List.filter_cons]
    have h0 := h 0 s rfl
    rw [Nat.add_zero] at h0
    rw [h0, ih (k + 1) (fun i t hi => by
      have := h (i + 1) t hi
      rw [show k + (i + 1) = k + 1 + i by omega] at this
      exact this)]
    cases hF : F s <;> simp

theorem splitAll_flatMap [WindingCount C] (marks : List Mark) (f : Seg C → List (Seg C)) :
    ∀ (l : List (Seg C)) (k : Nat), (∀ i s, l[i]? = some s → splitSeg marks (k + i) s = f s) →
      splitAll marks k l = l.flatMap f := by
  intro l k h
  have := splitAll_filter (fun _ => true) marks f l k (fun i s hi => by simp [h i s hi])
  simpa using this

/-! ### merging and filtering -/

theorem keySum_filter [LawfulCount C] (P : Pt → Bool) (l : List (Seg C)) (a b : Pt) :
    keySum (l.filter fun s => P s.a) a b = if P a then keySum l a b else WindingCount.zero := by
  induction l with
  | nil => simp
  | cons s l ih =>
    rw [List.filter_cons]
    by_cases h : P s.a = true
    · rw [if_pos h, keySum_cons, keySum_cons, ih]
      by_cases e : s.a = a ∧ s.b = b
      · rw [if_pos e, if_pos e, ← e.1, if_pos h, if_pos h]
      · rw [if_neg e, if_neg e]
    · rw [if_neg h, ih]
      by_cases e : P a = true
      · rw [if_pos e, if_pos e, keySum_cons, if_neg]
        rintro ⟨rfl, -⟩
        exact h e
      · rw [if_neg e, if_neg e]

theorem merge_filter [LawfulCount C] (P : Pt → Bool) {l : List (Seg C)} (hne : ∀ s ∈ l, WindingCount.isNotEmpty s.c = true) :
    (mergeIfNeeded (sortSegs l)).filter (fun s => P s.a) = mergeIfNeeded (sortSegs (l.filter fun s => P s.a)) := by
  have n1 : ∀ s ∈ sortSegs l, WindingCount.isNotEmpty s.c = true := fun s hs => hne s ((sortSegs_perm _).mem_iff.1 hs)
  have n2 : ∀ s ∈ sortSegs (l.filter fun s => P s.a), WindingCount.isNotEmpty s.c = true :=
    fun s hs => hne s (List.mem_filter.1 ((sortSegs_perm _).mem_iff.1 hs)).1
  apply strictSorted_ext ((mergeIfNeeded_sorted _ (sortSegs_sorted _)).filter _) (mergeIfNeeded_sorted _ (sortSegs_sorted _))
  intro s
  rw [List.mem_filter, mergeIfNeeded_mem _ (sortSegs_sorted _) n1, mergeIfNeeded_mem _ (sortSegs_sorted _) n2,
    keySum_perm (sortSegs_perm _), keySum_perm (sortSegs_perm _), keySum_filter]
  by_cases h : P s.a = true
  · rw [if_pos h]; simp [h]
  · rw [if_neg h]
    constructor
    · rintro ⟨-, h'⟩; exact absurd h' h
    · rintro ⟨h1, h2⟩
      rw [h1, LawfulCount.isNotEmpty_iff'] at h2
      exact absurd rfl h2

/-- A merged list is kept by sorting and merging. -/
theorem merge_self [LawfulCount C] {l : List (Seg C)} (hs : l.Pairwise Seg.lt) (hne : ∀ s ∈ l, WindingCount.isNotEmpty s.c = true) :
    mergeIfNeeded (sortSegs l) = l := by
  have n1 : ∀ s ∈ sortSegs l, WindingCount.isNotEmpty s.c = true := fun s h => hne s ((sortSegs_perm _).mem_iff.1 h)
  apply strictSorted_ext (mergeIfNeeded_sorted _ (sortSegs_sorted _)) hs
  have key : ∀ l : List (Seg C), l.Pairwise Seg.lt → ∀ s ∈ l, keySum l s.a s.b = s.c := by
    intro l
    induction l with
    | nil => intro _ s h; simp at h
    | cons t l ih =>
      intro h s hs
      obtain ⟨h1, h2⟩ := List.pairwise_cons.1 h
      rw [keySum_cons]
      rcases List.mem_cons.1 hs with rfl | hs
      · rw [if_pos ⟨rfl, rfl⟩, keySum_eq_zero (not_key_of_lt h1), add_zero']
      · rw [if_neg, ih h2 s hs]
        rintro ⟨e1, e2⟩
        exact Seg.lt_irrefl s ((Seg.lt_congr e1 e2 rfl rfl).1 (h1 s hs))
  intro s
  rw [mergeIfNeeded_mem _ (sortSegs_sorted _) n1, keySum_perm (sortSegs_perm _)]
  constructor
  · rintro ⟨h1, h2⟩
    by_contra hn
    rw [h1, LawfulCount.isNotEmpty_iff'] at h2
    apply h2
    apply keySum_eq_zero
    rintro t ht ⟨e1, e2⟩
    have := key l hs t ht
    rw [e1, e2, ← h1] at this
    apply hn
    obtain ⟨a, b, c⟩ := t
    obtain ⟨a', b', c'⟩ := s
    dsimp only at e1 e2 this
    subst e1; subst e2; subst this
    exact ht
  · intro h
    exact ⟨(key l hs s h).symm, hne s h⟩

/-! ### noded edges are not cut, whatever the radius -/

theorem crossMarks_meet {p : EPair} (hi : p.ei.a ≠ p.ei.b) (hj : p.ej.a ≠ p.ej.b) {radius : Int} (hr : 0 ≤ radius)
    (h : MeetAtEnds p.ei.a p.ei.b p.ej.a p.ej.b) : crossMarks radius p = ([], false) := by
  have sp := crossMarks_spec p hi hj hr
  have hend : ∀ {a b x : Pt}, (x = a ∨ x = b) → onSeg x.q a b := by
    rintro a b x (rfl | rfl)
    · exact onSeg_left _ _
    · exact onSeg_right _ _
  have no : ∀ {a b : Pt} {q : QPt}, a ≠ b → inSeg q a b → ¬ (q = a.q ∨ q = b.q) := by
    rintro a b q hab hq (e | e)
    · exact (hq.ne hab).1 e
    · exact (hq.ne hab).2 e
  generalize crossMarks radius p = r at sp
  cases sp with
  | none h => rfl
  | endI pt _ he hin => exact absurd (h _ hin.on (hend he)).1 (no hi hin)
  | endJ pt _ he hin => exact absurd (h _ (hend he) hin.on).2 (no hj hin)
  | both pt _ a b => exact absurd (h _ a.on b.on).1 (no hi a)
  | round l _ hc => obtain ⟨q, a, b⟩ := hc; exact absurd (h _ a.on b.on).1 (no hi a)
  | overlay l _ hm =>
    rcases l with _ | ⟨m, l⟩
    · rfl
    · rcases (hm m).1 (by simp) with ⟨_, e, a⟩ | ⟨_, e, a⟩
      · exact absurd (h _ (hend e) a.on).2 (no hj a)
      · exact absurd (h _ a.on (hend e)).1 (no hi a)

theorem noded_no_marks {l : List (Seg C)} (hs : l.Pairwise Seg.lt) (hl : ∀ s ∈ l, s.a < s.b) (hn : Noded l) {radius : Int}
    (hr : 0 ≤ radius) : (roundMarks radius (listPairs l)).1 = [] := by
  rw [List.eq_nil_iff_forall_not_mem]
  intro m hm
  obtain ⟨i, j, s, t, hij, h1, h2, hm⟩ := ((roundMarks_iff hl (listPairs_covers l (sorted_of_strict hs) hl) hr).1 m).1 hm
  obtain ⟨l1, rfl⟩ := List.getElem?_eq_some_iff.1 h1
  obtain ⟨l2, rfl⟩ := List.getElem?_eq_some_iff.1 h2
  rw [crossMarks_meet (Pt.ne_of_lt (hl _ (List.getElem_mem l1))) (Pt.ne_of_lt (hl _ (List.getElem_mem l2))) hr
    (List.pairwise_iff_getElem.1 hn i j l1 l2 hij)] at hm
  simp at hm

/-- Splitting noded edges returns them at once. -/
theorem splitLoop_noded [WindingCount C] {tree : TreeOracle C} {l : List (Seg C)} (hs : l.Pairwise Seg.lt) (hl : ∀ s ∈ l, s.a < s.b)
    (hn : Noded l) (n : Nat) (sr : SnapRadius) : splitLoop .list tree (n + 1) .list sr l = some l := by
  rw [splitLoop]
  dsimp only
  rw [noded_no_marks hs hl hn sr.radius_nonneg]
  split <;> rfl

/-! ### two boxes -/

/-- The boxes are separated by a vertical or a horizontal line. -/
def Box.Apart (A B : Box) : Prop := A.x1 < B.x0 ∨ B.x1 < A.x0 ∨ A.y1 < B.y0 ∨ B.y1 < A.y0

theorem Box.Apart.symm {A B : Box} (h : A.Apart B) : B.Apart A := by
  unfold Box.Apart at *
  tauto

theorem Box.Apart.not_has {A B : Box} (h : A.Apart B) {p : Pt} (ha : A.Has p) : ¬ B.Has p := by
  unfold Box.Apart at h
  unfold Box.Has at *
  omega

/-- Whether the point lies in the box. -/
def Box.has (B : Box) (p : Pt) : Bool := decide (B.x0 ≤ p.x ∧ p.x ≤ B.x1 ∧ B.y0 ≤ p.y ∧ p.y ≤ B.y1)

theorem Box.has_iff {B : Box} {p : Pt} : B.has p = true ↔ B.Has p := by unfold Box.has Box.Has; rw [decide_eq_true_eq]

/-- Edges of two boxes have no common point. -/
theorem Box.Apart.disjoint {A B : Box} (h : A.Apart B) {a b c d : Pt} (ha : A.Has a) (hb : A.Has b) (hc : B.Has c) (hd : B.Has d)
    (q : QPt) (h1 : IOverlay.onSeg q a b) : ¬ IOverlay.onSeg q c d := by
  intro h2
  obtain ⟨e1, e2, e3, e4⟩ := onSeg_bounds h1
  obtain ⟨f1, f2, f3, f4⟩ := onSeg_bounds h2
  have g1 : min a.x b.x ≤ max c.x d.x := by exact_mod_cast e1.trans f2
  have g2 : min c.x d.x ≤ max a.x b.x := by exact_mod_cast f1.trans e2
  have g3 : min a.y b.y ≤ max c.y d.y := by exact_mod_cast e3.trans f4
  have g4 : min c.y d.y ≤ max a.y b.y := by exact_mod_cast f3.trans e4
  unfold Box.Apart at h
  unfold Box.Has at *
  omega

/-- Edges each lying in one of two boxes. -/
structure TwoParts [WindingCount C] (A B : Box) (l : List (Seg C)) : Prop where
  sorted : l.Pairwise Seg.lt
  lt : ∀ s ∈ l, s.a < s.b
  range : ∀ s ∈ l, InRange s.a ∧ InRange s.b
  ne : ∀ s ∈ l, WindingCount.isNotEmpty s.c = true
  sides : ∀ s ∈ l, A.HasSeg s ∨ B.HasSeg s

/-- The edges in the box. -/
def inBox (A : Box) (l : List (Seg C)) : List (Seg C) := l.filter fun s => A.has s.a

theorem TwoParts.symm [WindingCount C] {A B : Box} {l : List (Seg C)} (h : TwoParts A B l) : TwoParts B A l :=
  ⟨h.sorted, h.lt, h.range, h.ne, fun s hs => (h.sides s hs).symm⟩

theorem TwoParts.part [WindingCount C] {A B : Box} {l : List (Seg C)} (h : TwoParts A B l) : TwoParts A B (inBox A l) :=
  ⟨h.sorted.filter _, fun s hs => h.lt s (List.mem_filter.1 hs).1, fun s hs => h.range s (List.mem_filter.1 hs).1,
    fun s hs => h.ne s (List.mem_filter.1 hs).1, fun s hs => h.sides s (List.mem_filter.1 hs).1⟩

theorem TwoParts.mem_part [WindingCount C] {A B : Box} (hAB : A.Apart B) {l : List (Seg C)} (h : TwoParts A B l) {s : Seg C} :
    s ∈ inBox A l ↔ s ∈ l ∧ A.HasSeg s := by
  unfold inBox
  rw [List.mem_filter, Box.has_iff]
  constructor
  · rintro ⟨h1, h2⟩
    rcases h.sides s h1 with g | g
    · exact ⟨h1, g⟩
    · exact absurd g.1 (hAB.not_has h2)
  · rintro ⟨h1, h2⟩
    exact ⟨h1, h2.1⟩

/-- Edges of different boxes do not cut each other. -/
theorem TwoParts.apart_marks [WindingCount C] {A B : Box} (hAB : A.Apart B) {l : List (Seg C)} (h : TwoParts A B l) {s t : Seg C}
    (hs : s ∈ l) (ht : t ∈ l) (hsA : A.HasSeg s) (htB : B.HasSeg t) {radius : Int} (hr : 0 ≤ radius) (i j : Nat) :
    crossMarks radius ⟨i, j, s.x, t.x⟩ = ([], false) ∧ crossMarks radius ⟨i, j, t.x, s.x⟩ = ([], false) := by
  constructor
  · exact crossMarks_disjoint (Pt.ne_of_lt (h.lt s hs)) (Pt.ne_of_lt (h.lt t ht)) hr
      (hAB.disjoint hsA.1 hsA.2 htB.1 htB.2)
  · exact crossMarks_disjoint (Pt.ne_of_lt (h.lt t ht)) (Pt.ne_of_lt (h.lt s hs)) hr
      (hAB.symm.disjoint htB.1 htB.2 hsA.1 hsA.2)

theorem TwoParts.cuts_same [WindingCount C] {A B : Box} (hAB : A.Apart B) {l : List (Seg C)} (h : TwoParts A B l) {s t : Seg C}
    (hs : s ∈ l) (ht : t ∈ l) (hsA : A.HasSeg s) {radius : Int} (hr : 0 ≤ radius) {p : Pt} (hc : Cuts radius s t p) :
    A.HasSeg t ∧ A.Has p ∧ InRange p := by
  have htA : A.HasSeg t := by
    rcases h.sides t ht with g | g
    · exact g
    · obtain ⟨m1, m2⟩ := h.apart_marks hAB hs ht hsA g hr 0 1
      rcases hc with ⟨-, hc⟩ | ⟨-, hc⟩
      · rw [m1] at hc; simp at hc
      · rw [m2] at hc; simp at hc
  have r1 := h.range s hs
  have r2 := h.range t ht
  have n1 := Pt.ne_of_lt (h.lt s hs)
  have n2 := Pt.ne_of_lt (h.lt t ht)
  have inr : ∀ p : Pt, InRange p ↔ (⟨-(2 ^ 30 - 1), 2 ^ 30 - 1, -(2 ^ 30 - 1), 2 ^ 30 - 1⟩ : Box).Has p := by
    intro p; unfold InRange Box.Has; dsimp only; constructor <;> intro h <;> omega
  refine ⟨htA, ?_⟩
  rcases hc with ⟨-, hc⟩ | ⟨-, hc⟩
  · exact ⟨crossMarks_box (p := ⟨0, 1, s.x, t.x⟩) n1 n2 hr r1.1 r1.2 r2.1 r2.2 hsA.1 hsA.2 htA.1 htA.2 hc,
      (inr _).2 (crossMarks_box (p := ⟨0, 1, s.x, t.x⟩) n1 n2 hr r1.1 r1.2 r2.1 r2.2 ((inr _).1 r1.1) ((inr _).1 r1.2)
        ((inr _).1 r2.1) ((inr _).1 r2.2) hc)⟩
  · exact ⟨crossMarks_box (p := ⟨0, 1, t.x, s.x⟩) n2 n1 hr r2.1 r2.2 r1.1 r1.2 htA.1 htA.2 hsA.1 hsA.2 hc,
      (inr _).2 (crossMarks_box (p := ⟨0, 1, t.x, s.x⟩) n2 n1 hr r2.1 r2.2 r1.1 r1.2 ((inr _).1 r2.1) ((inr _).1 r2.2)
        ((inr _).1 r1.1) ((inr _).1 r1.2) hc)⟩

theorem piecesAt_ends [WindingCount C] {pts : List Pt} {s : Seg C} (P : Pt → Prop) (ha : P s.a) (hb : P s.b)
    (hp : ∀ p ∈ pts, P p) : ∀ e ∈ piecesAt pts s, P e.a ∧ P e.b := by
  intro e he
  unfold piecesAt at he
  split at he
  · rw [List.mem_singleton] at he; subst he; exact ⟨ha, hb⟩
  · refine chainSegs_ends _ _ _ _ P ha hb ?_ e he
    intro q hq
    exact hp q ((subSort_perm _ _ _ _).mem_iff.1 hq)

theorem piecesAt_ne [WindingCount C] (hinv : ∀ c : C, WindingCount.isNotEmpty c = true → WindingCount.isNotEmpty (WindingCount.invert c) = true)
    {pts : List Pt} {s : Seg C} (hs : WindingCount.isNotEmpty s.c = true) : ∀ e ∈ piecesAt pts s, WindingCount.isNotEmpty e.c = true := by
  intro e he
  unfold piecesAt at he
  split at he
  · rw [List.mem_singleton] at he; subst he; exact hs
  · exact chainSegs_nonempty hinv _ hs _ _ _ e he

open Classical in
/-- The marked points of an edge of the list in a round. -/
noncomputable def cutPts (radius : Int) (l : List (Seg C)) (s : Seg C) : List Pt :=
  if h : ∃ i : Nat, l[i]? = some s then pointsOf h.choose (roundMarks radius (listPairs l)).1 else []

theorem cutPts_eq {l : List (Seg C)} (hs : l.Pairwise Seg.lt) (hl : ∀ s ∈ l, s.a < s.b) {radius : Int} (hr : 0 ≤ radius)
    {i : Nat} {s : Seg C} (hi : l[i]? = some s) : pointsOf i (roundMarks radius (listPairs l)).1 = cutPts radius l s := by
  have h : ∃ i : Nat, l[i]? = some s := ⟨i, hi⟩
  unfold cutPts
  rw [dif_pos h]
  refine ptSorted_ext (pointsOf_sorted _ _) (pointsOf_sorted _ _) fun p => ?_
  rw [mem_points_iff hs hl hr hi, mem_points_iff hs hl hr h.choose_spec]

section
variable [LawfulCount C] (hinv : ∀ c : C, WindingCount.isNotEmpty c = true → WindingCount.isNotEmpty (WindingCount.invert c) = true)
include hinv

/-- One round keeps the edges in their boxes. -/
theorem TwoParts.round {A B : Box} (hAB : A.Apart B) {l : List (Seg C)} (h : TwoParts A B l) {radius : Int} (hr : 0 ≤ radius) :
    TwoParts A B (applyMarks (roundMarks radius (listPairs l)).1 l) := by
  have hc := listPairs_covers l (sorted_of_strict h.sorted) h.lt
  refine ⟨applyMarks_sorted _ _, applyMarks_lt h.lt hc hr, ?_, applyMarks_nonempty hinv _ _ h.ne, ?_⟩
  all_goals
    intro e he
    obtain ⟨e', h1, h2, h3⟩ := mergeIfNeeded_edges _ e he
    rw [(sortSegs_perm _).mem_iff] at h1
    try unfold Box.HasSeg
    rw [h2, h3]
    obtain ⟨i, s, h4, h5⟩ := (mem_splitAll _ _ _ _).1 h1
    rw [Nat.zero_add, splitSeg_piecesAt] at h5
    have hs := List.mem_of_getElem? h4
    have hp : ∀ p ∈ pointsOf i (roundMarks radius (listPairs l)).1, (A.HasSeg s → A.Has p) ∧ (B.HasSeg s → B.Has p) ∧ InRange p := by
      intro p hp
      obtain ⟨t, ht, hcut⟩ := (mem_points_iff h.sorted h.lt hr h4 p).1 hp
      refine ⟨fun g => (h.cuts_same hAB hs ht g hr hcut).2.1, fun g => (h.symm.cuts_same hAB.symm hs ht g hr hcut).2.1, ?_⟩
      rcases h.sides s hs with g | g
      · exact (h.cuts_same hAB hs ht g hr hcut).2.2
      · exact (h.symm.cuts_same hAB.symm hs ht g hr hcut).2.2
  · exact piecesAt_ends InRange (h.range s hs).1 (h.range s hs).2 (fun p h => (hp p h).2.2) e' h5
  · rcases h.sides s hs with g | g
    · exact Or.inl (piecesAt_ends A.Has g.1 g.2 (fun p h => (hp p h).1 g) e' h5)
    · exact Or.inr (piecesAt_ends B.Has g.1 g.2 (fun p h => (hp p h).2.1 g) e' h5)

/-- One round, restricted to a box, is the round of the edges in the box. -/
theorem TwoParts.round_part {A B : Box} (hAB : A.Apart B) {l : List (Seg C)} (h : TwoParts A B l) {radius : Int} (hr : 0 ≤ radius) :
    inBox A (applyMarks (roundMarks radius (listPairs l)).1 l) =
      applyMarks (roundMarks radius (listPairs (inBox A l))).1 (inBox A l) := by
  have hp := h.part
  have nePieces : ∀ s ∈ splitAll (roundMarks radius (listPairs l)).1 0 l, WindingCount.isNotEmpty s.c = true := by
    intro e he
    obtain ⟨i, s, h1, h2⟩ := (mem_splitAll _ _ _ _).1 he
    exact piecesAt_ne hinv (h.ne s (List.mem_of_getElem? h1)) e h2
  unfold applyMarks
  rw [inBox, merge_filter A.has nePieces]
  congr 2
  rw [splitAll_filter (fun s => A.has s.a) _ (fun s => piecesAt (cutPts radius (inBox A l) s) s)]
  · refine (splitAll_flatMap _ _ _ _ ?_).symm
    intro i s hi
    rw [Nat.zero_add, splitSeg_piecesAt, cutPts_eq hp.sorted hp.lt hr hi]
  · intro i s hi
    have hs := List.mem_of_getElem? hi
    rw [Nat.zero_add, splitSeg_piecesAt]
    have hpt := mem_points_iff h.sorted h.lt hr hi
    rcases h.sides s hs with g | g
    · have hin : A.has s.a = true := Box.has_iff.2 g.1
      have hall : ∀ e ∈ piecesAt (pointsOf i (roundMarks radius (listPairs l)).1) s, A.has e.a = true := by
        intro e he
        refine Box.has_iff.2 (piecesAt_ends A.Has g.1 g.2 ?_ e he).1
        intro p hp'
        obtain ⟨t, ht, hc⟩ := (hpt p).1 hp'
        exact (h.cuts_same hAB hs ht g hr hc).2.1
      rw [if_pos hin, List.filter_eq_self.2 hall]
      congr 1
      obtain ⟨k, hk⟩ := List.mem_iff_getElem?.1 ((h.mem_part hAB).2 ⟨hs, g⟩)
      rw [← cutPts_eq hp.sorted hp.lt hr hk]
      refine ptSorted_ext (pointsOf_sorted _ _) (pointsOf_sorted _ _) fun p => ?_
      rw [hpt, mem_points_iff hp.sorted hp.lt hr hk]
      constructor
      · rintro ⟨t, ht, hc⟩
        exact ⟨t, (h.mem_part hAB).2 ⟨ht, (h.cuts_same hAB hs ht g hr hc).1⟩, hc⟩
      · rintro ⟨t, ht, hc⟩
        exact ⟨t, (List.mem_filter.1 ht).1, hc⟩
    · have hout : ¬ A.has s.a = true := fun hA => hAB.not_has (Box.has_iff.1 hA) g.1
      rw [if_neg hout, List.filter_eq_nil_iff]
      intro e he hA
      refine hAB.not_has (Box.has_iff.1 hA) (piecesAt_ends B.Has g.1 g.2 ?_ e he).1
      intro p hp'
      obtain ⟨t, ht, hc⟩ := (hpt p).1 hp'
      exact (h.symm.cuts_same hAB.symm hs ht g hr hc).2.1

omit hinv in
/-- No mark in the whole: no mark in the part. Rounding in the part: rounding in the whole. -/
theorem TwoParts.marks_part {A B : Box} {l : List (Seg C)} (h : TwoParts A B l) {radius : Int} (hr : 0 ≤ radius) :
    ((roundMarks radius (listPairs l)).1 = [] → (roundMarks radius (listPairs (inBox A l))).1 = []) ∧
    ((roundMarks radius (listPairs (inBox A l))).2 = true → (roundMarks radius (listPairs l)).2 = true) := by
  have hp := h.part
  obtain ⟨m1, m2⟩ := roundMarks_iff h.lt (listPairs_covers l (sorted_of_strict h.sorted) h.lt) hr
  obtain ⟨p1, p2⟩ := roundMarks_iff hp.lt (listPairs_covers _ (sorted_of_strict hp.sorted) hp.lt) hr
  have lift : ∀ (i j : Nat) (s t : Seg C), i < j → (inBox A l)[i]? = some s → (inBox A l)[j]? = some t →
      ∃ i' j' : Nat, i' < j' ∧ l[i']? = some s ∧ l[j']? = some t := by
    intro i j s t hij h1 h2
    obtain ⟨i', e1⟩ := List.mem_iff_getElem?.1 (List.mem_filter.1 (List.mem_of_getElem? h1)).1
    obtain ⟨j', e2⟩ := List.mem_iff_getElem?.1 (List.mem_filter.1 (List.mem_of_getElem? h2)).1
    exact ⟨i', j', (strict_index h.sorted e1 e2).1 ((strict_index hp.sorted h1 h2).2 hij), e1, e2⟩
  constructor
  · intro h0
    rw [List.eq_nil_iff_forall_not_mem]
    intro m hm
    obtain ⟨i, j, s, t, hij, h1, h2, h3⟩ := (p1 m).1 hm
    obtain ⟨i', j', hij', e1, e2⟩ := lift i j s t hij h1 h2
    rw [crossMarks_renum] at h3
    obtain ⟨n, hn, -⟩ := List.mem_map.1 h3
    have hn' : (⟨if n.index = 0 then i' else j', n.point⟩ : Mark) ∈ (crossMarks radius ⟨i', j', s.x, t.x⟩).1 := by
      rw [crossMarks_renum]
      exact List.mem_map.2 ⟨n, hn, rfl⟩
    have := (m1 _).2 ⟨i', j', s, t, hij', e1, e2, hn'⟩
    rw [h0] at this
    simp at this
  · intro h0
    obtain ⟨i, j, s, t, hij, h1, h2, h3⟩ := p2.1 h0
    obtain ⟨i', j', hij', e1, e2⟩ := lift i j s t hij h1 h2
    rw [crossMarks_renum] at h3
    refine m2.2 ⟨i', j', s, t, hij', e1, e2, ?_⟩
    rw [crossMarks_renum]
    exact h3

omit hinv in
/-- Rounding in the whole comes from one of the parts. -/
theorem TwoParts.flag {A B : Box} (hAB : A.Apart B) {l : List (Seg C)} (h : TwoParts A B l) {radius : Int} (hr : 0 ≤ radius)
    (hf : (roundMarks radius (listPairs l)).2 = true) :
    (roundMarks radius (listPairs (inBox A l))).2 = true ∨ (roundMarks radius (listPairs (inBox B l))).2 = true := by
  have key : ∀ {A B : Box} (_ : A.Apart B) (_ : TwoParts A B l) (i j : Nat) (s t : Seg C), i < j → l[i]? = some s → l[j]? = some t →
      (crossMarks radius ⟨i, j, s.x, t.x⟩).2 = true → A.HasSeg s → (roundMarks radius (listPairs (inBox A l))).2 = true := by
    intro A B hAB h i j s t hij h1 h2 hc g
    have hp := h.part
    have hs := List.mem_of_getElem? h1
    have ht := List.mem_of_getElem? h2
    have g' : A.HasSeg t := by
      rcases h.sides t ht with g' | g'
      · exact g'
      · rw [(h.apart_marks hAB hs ht g g' hr i j).1] at hc
        simp at hc
    obtain ⟨i', e1⟩ := List.mem_iff_getElem?.1 ((h.mem_part hAB).2 ⟨hs, g⟩)
    obtain ⟨j', e2⟩ := List.mem_iff_getElem?.1 ((h.mem_part hAB).2 ⟨ht, g'⟩)
    refine (roundMarks_iff hp.lt (listPairs_covers _ (sorted_of_strict hp.sorted) hp.lt) hr).2.2
      ⟨i', j', s, t, (strict_index hp.sorted e1 e2).1 ((strict_index h.sorted h1 h2).2 hij), e1, e2, ?_⟩
    rw [crossMarks_renum] at hc ⊢
    exact hc
  obtain ⟨i, j, s, t, hij, h1, h2, hc⟩ := (roundMarks_iff h.lt (listPairs_covers l (sorted_of_strict h.sorted) h.lt) hr).2.1 hf
  rcases h.sides s (List.mem_of_getElem? h1) with g | g
  · exact Or.inl (key hAB h i j s t hij h1 h2 hc g)
  · exact Or.inr (key hAB.symm h.symm i j s t hij h1 h2 hc g)

/-- The list strategy on the whole, restricted to a box, is the list strategy on the edges in the box. -/
theorem TwoParts.loop_part {A B : Box} (hAB : A.Apart B) {tree tree' : TreeOracle C} (n : Nat) : ∀ {l : List (Seg C)} (_ : TwoParts A B l)
    {sr : SnapRadius} {r : List (Seg C)}, splitLoop .list tree n .list sr l = some r →
    splitLoop .list tree' n .list sr (inBox A l) = some (inBox A r) := by
  induction n with
  | zero => intro l _ sr r h; simp [splitLoop] at h
  | succ n ih =>
    intro l hl sr r h
    have hr := sr.radius_nonneg
    have hp := hl.part
    have done : ∀ {m : Nat} {sr' : SnapRadius}, (roundMarks sr.radius (listPairs (inBox A l))).1 = [] →
        splitLoop .list tree' (m + 1) .list sr' (inBox A l) = some (inBox A l) := fun h0 =>
      splitLoop_noded hp.sorted hp.lt
        (noded_of_no_marks hp.sorted hp.lt (listPairs_covers _ (sorted_of_strict hp.sorted) hp.lt) hr h0) _ _
    have keep : (roundMarks sr.radius (listPairs (inBox A l))).1 = [] →
        applyMarks (roundMarks sr.radius (listPairs (inBox A l))).1 (inBox A l) = inBox A l := by
      intro h0
      rw [h0, applyMarks, splitAll_flatMap [] (fun s => [s]) _ 0 (fun i s _ => rfl)]
      simp only [List.flatMap_singleton']
      exact merge_self hp.sorted hp.ne
    rw [splitLoop] at h
    dsimp only at h
    split at h
    · rename_i h1
      obtain rfl := Option.some.inj h
      rw [splitLoop, if_pos (show (inBox A l).length ≤ 1 from (List.length_filter_le _ _).trans h1)]
    · split at h
      · rename_i h2
        obtain rfl := Option.some.inj h
        exact done ((hl.marks_part hr).1 (List.isEmpty_iff.1 h2))
      · simp only [isListSplit, if_true] at h
        have rp := hl.round_part hinv hAB hr
        have hc' := listPairs_covers _ (sorted_of_strict hp.sorted) hp.lt
        by_cases he : (roundMarks sr.radius (listPairs (inBox A l))).1 = []
        · rw [done he]
          rw [keep he] at rp
          split at h
          · have := ih (hl.round hinv hAB hr) h
            rw [rp] at this
            cases n with
            | zero => simp [splitLoop] at this
            | succ n =>
              rw [done he] at this
              exact this
          · obtain rfl := Option.some.inj h
            rw [rp]
        · have hlen : ¬ (inBox A l).length ≤ 1 := by
            intro hlen
            apply he
            rw [List.eq_nil_iff_forall_not_mem]
            intro m hm
            obtain ⟨i, j, s, t, hij, h1, h2, -⟩ := ((roundMarks_iff hp.lt hc' hr).1 m).1 hm
            obtain ⟨l1, -⟩ := List.getElem?_eq_some_iff.1 h1
            obtain ⟨l2, -⟩ := List.getElem?_eq_some_iff.1 h2
            omega
          rw [splitLoop, if_neg hlen]
          dsimp only
          rw [if_neg (by rwa [List.isEmpty_iff]), ← rp]
          simp only [isListSplit, if_true]
          split at h
          · rename_i hfl
            have step := ih (hl.round hinv hAB hr) h
            split
            · exact step
            · rename_i hnf
              -- the part is finished, the whole goes on
              have nd : Noded (inBox A (applyMarks (roundMarks sr.radius (listPairs l)).1 l)) := by
                rw [rp]
                exact applyMarks_noded hp.lt hc' hr (by simpa using hnf)
              have q := (hl.round hinv hAB hr).part
              cases n with
              | zero => simp [splitLoop] at step
              | succ n =>
                rw [splitLoop_noded q.sorted q.lt nd] at step
                exact step
          · rename_i hfl
            rw [if_neg fun hx => hfl ((hl.marks_part hr).2 hx)]
            rw [Option.some.inj h]

/-- If the list strategy ends for both parts, it ends for the whole, in no more rounds. -/
theorem TwoParts.loop_ends {A B : Box} (hAB : A.Apart B) {tree tree' tree'' : TreeOracle C} (n : Nat) : ∀ {l : List (Seg C)}
    (_ : TwoParts A B l) {sr : SnapRadius} {rA rB : List (Seg C)}, splitLoop .list tree n .list sr (inBox A l) = some rA →
    splitLoop .list tree' n .list sr (inBox B l) = some rB →
    ∃ r, splitLoop .list tree'' n .list sr l = some r := by
  induction n with
  | zero => intro l _ sr rA rB h; simp [splitLoop] at h
  | succ n ih =>
    intro l hl sr rA rB hA hB
    have hr := sr.radius_nonneg
    rw [splitLoop]
    dsimp only
    split
    · exact ⟨_, rfl⟩
    · split
      · exact ⟨_, rfl⟩
      · simp only [isListSplit, if_true]
        split
        · rename_i hfl
          -- what a part does in the next round
          have next : ∀ {A B : Box} (hAB : A.Apart B) (hl : TwoParts A B l) {tr : TreeOracle C} {rA : List (Seg C)},
              splitLoop .list tr (n + 1) .list sr (inBox A l) = some rA →
              ((roundMarks sr.radius (listPairs (inBox A l))).2 = true → ∃ r', splitLoop .list tr n .list sr.increment
                (inBox A (applyMarks (roundMarks sr.radius (listPairs l)).1 l)) = some r') ∧
              ((roundMarks sr.radius (listPairs (inBox A l))).2 = false →
                Noded (inBox A (applyMarks (roundMarks sr.radius (listPairs l)).1 l))) := by
            intro A B hAB hl tr rA hA
            have hp := hl.part
            have hc' := listPairs_covers _ (sorted_of_strict hp.sorted) hp.lt
            rw [hl.round_part hinv hAB hr]
            refine ⟨fun hx => ?_, fun hx => applyMarks_noded hp.lt hc' hr hx⟩
            rw [splitLoop] at hA
            dsimp only at hA
            obtain ⟨i, j, s, t, hij, h1, h2, h3⟩ := (roundMarks_iff hp.lt hc' hr).2.1 hx
            obtain ⟨l1, -⟩ := List.getElem?_eq_some_iff.1 h1
            obtain ⟨l2, -⟩ := List.getElem?_eq_some_iff.1 h2
            rw [if_neg (by omega), if_neg, if_pos hx] at hA
            · simp only [isListSplit, if_true] at hA
              exact ⟨_, hA⟩
            · intro he
              have he := List.isEmpty_iff.1 he
              have hm : (crossMarks sr.radius ⟨i, j, s.x, t.x⟩).1 = [] := by
                rw [List.eq_nil_iff_forall_not_mem]
                intro m hm
                have := ((roundMarks_iff hp.lt hc' hr).1 m).2 ⟨i, j, s, t, hij, h1, h2, hm⟩
                rw [he] at this
                simp at this
              have sp := crossMarks_spec ⟨i, j, s.x, t.x⟩ (Pt.ne_of_lt (hp.lt s (List.mem_of_getElem? h1)))
                (Pt.ne_of_lt (hp.lt t (List.mem_of_getElem? h2))) hr
              generalize crossMarks sr.radius ⟨i, j, s.x, t.x⟩ = r at sp h3 hm
              cases sp <;> simp_all
          obtain ⟨a1, a2⟩ := next hAB hl hA
          obtain ⟨b1, b2⟩ := next hAB.symm hl.symm hB
          have q := hl.round hinv hAB hr
          have qA := q.part
          have qB := q.symm.part
          have fuel : ∀ {tr : TreeOracle C} {sr' : SnapRadius} {l' r' : List (Seg C)}, splitLoop .list tr n .list sr' l' = some r' →
              ∃ m, n = m + 1 := by
            intro tr sr' l' r' h
            cases n with
            | zero => simp [splitLoop] at h
            | succ m => exact ⟨m, rfl⟩
          by_cases fA : (roundMarks sr.radius (listPairs (inBox A l))).2 = true
          · obtain ⟨r', hA'⟩ := a1 fA
            by_cases fB : (roundMarks sr.radius (listPairs (inBox B l))).2 = true
            · obtain ⟨r'', hB'⟩ := b1 fB
              exact ih q hA' hB'
            · obtain ⟨m, rfl⟩ := fuel hA'
              exact ih q hA' (splitLoop_noded (tree := tree') qB.sorted qB.lt (b2 (by simpa using fB)) m _)
          · rcases hl.flag hAB hr hfl with g | fB
            · exact absurd g fA
            · obtain ⟨r'', hB'⟩ := b1 fB
              obtain ⟨m, rfl⟩ := fuel hB'
              exact ih q (splitLoop_noded (tree := tree) qA.sorted qA.lt (a2 (by simpa using fA)) m _) hB'
        · exact ⟨_, rfl⟩

/-- All edges of the result lie in the boxes. -/
theorem TwoParts.loop_sides {A B : Box} (hAB : A.Apart B) {tree : TreeOracle C} (n : Nat) : ∀ {l : List (Seg C)} (_ : TwoParts A B l)
    {sr : SnapRadius} {r : List (Seg C)}, splitLoop .list tree n .list sr l = some r → ∀ s ∈ r, A.HasSeg s ∨ B.HasSeg s := by
  induction n with
  | zero => intro l _ sr r h; simp [splitLoop] at h
  | succ n ih =>
    intro l hl sr r h
    rw [splitLoop] at h
    dsimp only at h
    simp only [isListSplit, if_true] at h
    have q := hl.round hinv hAB sr.radius_nonneg
    split_ifs at h
    · obtain rfl := Option.some.inj h; exact hl.sides
    · obtain rfl := Option.some.inj h; exact hl.sides
    · exact ih q h
    · obtain rfl := Option.some.inj h; exact q.sides

end

end IOverlay
