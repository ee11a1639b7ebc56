/-
A contour without spikes registers exactly the edges between its corners.
-/
import Verif.BuildLemmas
import Verif.SliceLemmas
import Mathlib.Tactic.Linarith
import Mathlib.Tactic.Ring
import Mathlib.Data.List.Rotate

namespace IOverlay
variable {C : Type}

/-! ### specification -/

/-- Consecutive triples of a list of points. -/
def triples : List Pt → List (Pt × Pt × Pt)
  | a :: b :: c :: l => (a, b, c) :: triples (b :: c :: l)
  | _ => []

/-- Consecutive triples of the closed polygon through the points. -/
def cyclicTriples (pts : List Pt) : List (Pt × Pt × Pt) := triples (pts ++ pts.take 2)

/-- `b` is a corner of the path `a b c`: the three points are not on a line. -/
def isCorner (t : Pt × Pt × Pt) : Bool := decide (area2 t.1 t.2.1 t.2.2 ≠ 0)

/-- The path `a b c` goes on in the same direction at `b`, or turns; it neither rests nor turns back. -/
def GoesOn (t : Pt × Pt × Pt) : Prop :=
  area2 t.1 t.2.1 t.2.2 ≠ 0 ∨ 0 < dot t.2.1 t.1 t.2.2 t.2.1

instance (t : Pt × Pt × Pt) : Decidable (GoesOn t) := by unfold GoesOn; infer_instance

/-- A closed polygon without spikes and repeated points: at every vertex it goes straight on or turns. -/
def NoSpikes (pts : List Pt) : Prop := ∀ t ∈ cyclicTriples pts, GoesOn t

instance (pts : List Pt) : Decidable (NoSpikes pts) := by unfold NoSpikes; infer_instance

/-- The vertices where the closed polygon turns. -/
def corners (pts : List Pt) : List Pt := ((cyclicTriples pts).filter isCorner).map fun t => t.2.1

/-! ### straight runs -/

/-- `a` lies on the way from `p` to `b`. -/
def OnWay (p a b : Pt) : Prop := (p = a ∧ a ≠ b) ∨ (area2 p a b = 0 ∧ 0 < dot a p b a)

theorem pos_of_dot {a b c : Pt} (h : 0 < dot b a c b) : a ≠ b ∧ b ≠ c := by
  constructor <;> rintro rfl <;> simp [dot] at h

private theorem nsq {x y : Int} (h : x ≠ 0 ∨ y ≠ 0) : 0 < x * x + y * y := by
  rcases h with h | h
  · nlinarith [mul_self_pos.2 h, mul_self_nonneg y]
  · nlinarith [mul_self_pos.2 h, mul_self_nonneg x]

theorem OnWay.ne {p a b : Pt} (h : OnWay p a b) : a ≠ b ∧ p ≠ b := by
  rcases h with ⟨rfl, h⟩ | ⟨h0, h1⟩
  · exact ⟨h, h⟩
  · refine ⟨(pos_of_dot h1).2, ?_⟩
    rintro rfl
    simp only [dot] at h1
    nlinarith [mul_self_nonneg (a.x - p.x), mul_self_nonneg (a.y - p.y)]

private theorem vec_eq (ux uy vx vy wx wy : Int) (h : ux * vy - uy * vx = 0) :
    (vx * vx + vy * vy) * (ux * wy - uy * wx) = (ux * vx + uy * vy) * (vx * wy - vy * wx) ∧
    (vx * vx + vy * vy) * (ux * wx + uy * wy) = (ux * vx + uy * vy) * (vx * wx + vy * wy) := by
  constructor
  · linear_combination (vx * wx + vy * wy) * h
  · linear_combination (vy * wx - vx * wy) * h

theorem OnWay.line {p a b : Pt} (h : OnWay p a b) (c : Pt) : isLine p b c = isLine a b c := by
  rcases h with ⟨rfl, h⟩ | ⟨h0, h1⟩
  · rfl
  · obtain ⟨-, hab⟩ := pos_of_dot h1
    have hv : 0 < (b.x - a.x) * (b.x - a.x) + (b.y - a.y) * (b.y - a.y) := by
      apply nsq
      by_contra hc
      simp only [not_or, not_not] at hc
      exact hab (by cases a; cases b; simp_all; omega)
    have e := (vec_eq (a.x - p.x) (a.y - p.y) (b.x - a.x) (b.y - a.y) (c.x - b.x) (c.y - b.y) (by
      unfold area2 at h0; linear_combination -h0)).1
    unfold isLine
    rw [Bool.eq_iff_iff, beq_iff_eq, beq_iff_eq]
    have h1' : 0 < (a.x - p.x) * (b.x - a.x) + (a.y - p.y) * (b.y - a.y) := h1
    have e2 : ((b.x - a.x) * (b.x - a.x) + (b.y - a.y) * (b.y - a.y)) * area2 p b c =
        ((a.x - p.x) * (b.x - a.x) + (a.y - p.y) * (b.y - a.y) +
          ((b.x - a.x) * (b.x - a.x) + (b.y - a.y) * (b.y - a.y))) * area2 a b c := by
      unfold area2
      linear_combination -e
    constructor
    · intro z
      rw [z, mul_zero] at e2
      rcases mul_eq_zero.1 e2.symm with h | h
      · omega
      · exact h
    · intro z
      rw [z, mul_zero] at e2
      rcases mul_eq_zero.1 e2 with h | h
      · omega
      · exact h

theorem OnWay.step {p a b c : Pt} (h : OnWay p a b) (hl : isLine a b c = true) (hd : 0 < dot b a c b) :
    OnWay p b c := by
  have hl' := h.line c
  rw [hl] at hl'
  refine Or.inr ⟨by simpa [isLine] using hl', ?_⟩
  rcases h with ⟨rfl, h⟩ | ⟨h0, h1⟩
  · exact hd
  · obtain ⟨-, hab⟩ := pos_of_dot h1
    have hv : 0 < (b.x - a.x) * (b.x - a.x) + (b.y - a.y) * (b.y - a.y) := by
      apply nsq
      by_contra hc
      simp only [not_or, not_not] at hc
      exact hab (by cases a; cases b; simp_all; omega)
    have e := (vec_eq (a.x - p.x) (a.y - p.y) (b.x - a.x) (b.y - a.y) (c.x - b.x) (c.y - b.y) (by
      unfold area2 at h0; linear_combination -h0)).2
    have h1' : 0 < (a.x - p.x) * (b.x - a.x) + (a.y - p.y) * (b.y - a.y) := h1
    have hd' : 0 < (b.x - a.x) * (c.x - b.x) + (b.y - a.y) * (c.y - b.y) := hd
    have hp := mul_pos h1' hd'
    rw [← e] at hp
    have := pos_of_mul_pos_right hp (le_of_lt hv)
    unfold dot
    nlinarith

/-- Three points on a line, passed in this order. -/
theorem OnWay.mid {p a b c : Pt} (h : OnWay p a b) (hl : isLine p b c = true) (hd : 0 < dot b a c b) : p ≠ c := by
  have hl' := h.line c
  rw [hl] at hl'
  exact (h.step hl'.symm hd).ne.2

/-! ### the loops -/

/-- The corners of an open path strictly between its ends. -/
def inner (l : List Pt) : List Pt := ((triples l).filter isCorner).map fun t => t.2.1

theorem inner_cons (a b c : Pt) (l : List Pt) :
    inner (a :: b :: c :: l) = (if isLine a b c then [] else [b]) ++ inner (b :: c :: l) := by
  unfold inner
  rw [triples, List.filter_cons]
  by_cases h : area2 a b c = 0 <;> simp [isCorner, isLine, h]

theorem pathSteps_cons_cons (a b : Pt) (l : List Pt) : pathSteps (a :: b :: l) = (a, b) :: pathSteps (b :: l) := rfl

/-- What the main loop leaves behind. -/
theorem mainLoop_corners (d i : C) : ∀ (l : List Pt) (p0 a b : Pt), OnWay p0 a b →
    (∀ t ∈ triples (a :: b :: l), GoesOn t) →
    ∃ a', (mainLoop d i p0 b l).1 = (pathSteps (p0 :: inner (a :: b :: l))).map (fun e => withAB e.1 e.2 d i) ∧
      (p0 :: inner (a :: b :: l)).getLast? = some (mainLoop d i p0 b l).2.1 ∧
      (∃ pre, a :: b :: l = pre ++ [a', (mainLoop d i p0 b l).2.2]) ∧
      OnWay (mainLoop d i p0 b l).2.1 a' (mainLoop d i p0 b l).2.2 := by
  intro l
  induction l with
  | nil => intro p0 a b h _; exact ⟨a, rfl, rfl, ⟨[], rfl⟩, h⟩
  | cons c l ih =>
    intro p0 a b h hg
    have hgo := hg (a, b, c) (by simp [triples])
    have hg' : ∀ t ∈ triples (b :: c :: l), GoesOn t := fun t ht => hg t (by rw [triples]; exact List.mem_cons_of_mem _ ht)
    unfold mainLoop
    rw [h.line c, inner_cons]
    by_cases hl : isLine a b c = true
    · rw [if_pos hl, if_pos hl]
      have hd : 0 < dot b a c b := by
        rcases hgo with h | h
        · simp only [isLine, beq_iff_eq] at hl; exact absurd hl h
        · exact h
      obtain ⟨a', e1, e2, ⟨pre, e3⟩, e4⟩ := ih p0 b c (h.step hl hd) hg'
      exact ⟨a', e1, e2, ⟨a :: pre, by rw [e3]; rfl⟩, e4⟩
    · rw [if_neg hl, if_neg hl]
      have hbc : b ≠ c := by
        rintro rfl
        exact hl (by simp [isLine, area2])
      obtain ⟨a', e1, e2, ⟨pre, e3⟩, e4⟩ := ih b b c (Or.inl ⟨rfl, hbc⟩) hg'
      refine ⟨a', ?_, ?_, ⟨a :: pre, by rw [e3]; rfl⟩, e4⟩
      · simp only [List.cons_append, List.nil_append, pathSteps_cons_cons, List.map_cons, e1]
      · simp only [List.cons_append, List.nil_append, List.getLast?_cons_cons, e2]

/-- Parallel vectors of the same direction. -/
def SameDir (ux uy vx vy : Int) : Prop := ux * vy - uy * vx = 0 ∧ 0 < ux * vx + uy * vy

theorem SameDir.symm {ux uy vx vy : Int} (h : SameDir ux uy vx vy) : SameDir vx vy ux uy :=
  ⟨by linear_combination -h.1, by have := h.2; linarith⟩

theorem SameDir.add {ux uy vx vy wx wy : Int} (h : SameDir ux uy vx vy) (k : SameDir ux uy wx wy) :
    SameDir ux uy (vx + wx) (vy + wy) :=
  ⟨by linear_combination h.1 + k.1, by have := h.2; have := k.2; linarith⟩

theorem SameDir.self {ux uy vx vy : Int} (h : SameDir ux uy vx vy) : SameDir ux uy ux uy := by
  refine ⟨by ring, nsq ?_⟩
  by_contra hc
  simp only [not_or, not_not] at hc
  have := h.2
  rw [hc.1, hc.2] at this
  simp at this

theorem SameDir.trans {ux uy vx vy wx wy : Int} (h : SameDir ux uy vx vy) (k : SameDir vx vy wx wy) :
    SameDir ux uy wx wy := by
  have hv : 0 < vx * vx + vy * vy := k.self.2
  obtain ⟨e1, e2⟩ := vec_eq ux uy vx vy wx wy h.1
  constructor
  · rw [k.1, mul_zero] at e1
    rcases mul_eq_zero.1 e1 with h | h
    · omega
    · exact h
  · have := mul_pos h.2 k.2
    rw [← e2] at this
    exact pos_of_mul_pos_right this (le_of_lt hv)

theorem OnWay.dir {p a b : Pt} (h : OnWay p a b) (hne : p ≠ a) :
    SameDir (a.x - p.x) (a.y - p.y) (b.x - a.x) (b.y - a.y) := by
  rcases h with ⟨h, -⟩ | ⟨h0, h1⟩
  · exact absurd h hne
  · refine ⟨by unfold area2 at h0; linear_combination -h0, h1⟩

theorem OnWay.of_dir {p a b : Pt} (h : SameDir (a.x - p.x) (a.y - p.y) (b.x - a.x) (b.y - a.y)) : OnWay p a b :=
  Or.inr ⟨by unfold area2; linear_combination -h.1, h.2⟩

/-- Going on beyond `b` to `c`, the first point `f` stays on the way back to the start `p`. -/
theorem OnWay.back {p f b c : Pt} (h : OnWay b f p) (hb : OnWay p b c) : OnWay c f p := by
  by_cases hfb : b = f
  · subst hfb
    have hpb : p ≠ b := h.ne.2.symm
    have := hb.dir hpb
    apply OnWay.of_dir
    refine ⟨?_, ?_⟩
    · linear_combination -this.1
    · have := this.2; nlinarith
  · have h1 := h.dir hfb
    have hpb : p ≠ b := h.ne.2.symm
    have h2 := hb.dir hpb
    -- u = f - p, v = b - f, w = c - b
    have huv : SameDir (f.x - p.x) (f.y - p.y) (b.x - f.x) (b.y - f.y) :=
      ⟨by linear_combination -h1.1, by have := h1.2; nlinarith⟩
    have hu : SameDir (f.x - p.x) (f.y - p.y) (b.x - p.x) (b.y - p.y) := by
      have := huv.self.add huv
      have e1 : f.x - p.x + (b.x - f.x) = b.x - p.x := by ring
      have e2 : f.y - p.y + (b.y - f.y) = b.y - p.y := by ring
      rwa [e1, e2] at this
    have hw := huv.add (hu.trans h2)
    apply OnWay.of_dir
    refine ⟨?_, ?_⟩
    · linear_combination -hw.1
    · have := hw.2; nlinarith

/-- What the first loop leaves behind: either the whole path is straight, or the first corner is found. -/
theorem skipLine_corners : ∀ (l : List Pt) (p0 f a b : Pt), OnWay p0 a b → OnWay b f p0 →
    (∀ t ∈ triples (a :: b :: l), GoesOn t) →
    (∃ a' b', inner (a :: b :: l) = [] ∧ skipLine p0 b l = (p0, b', []) ∧ (∃ pre, a :: b :: l = pre ++ [a', b']) ∧ OnWay p0 a' b') ∨
    ∃ a' q1 c r pre, inner (a :: b :: l) = q1 :: inner (q1 :: c :: r) ∧ skipLine p0 b l = (q1, c, r) ∧
      a :: b :: l = pre ++ a' :: q1 :: c :: r ∧ OnWay q1 f p0 ∧ q1 ≠ c := by
  intro l
  induction l with
  | nil => intro p0 f a b h _ _; exact Or.inl ⟨a, b, rfl, rfl, ⟨[], rfl⟩, h⟩
  | cons c l ih =>
    intro p0 f a b h hfb hg
    have hgo := hg (a, b, c) (by simp [triples])
    have hg' : ∀ t ∈ triples (b :: c :: l), GoesOn t := fun t ht => hg t (by rw [triples]; exact List.mem_cons_of_mem _ ht)
    unfold skipLine
    rw [h.line c, inner_cons]
    by_cases hl : isLine a b c = true
    · have hd : 0 < dot b a c b := by
        rcases hgo with h | h
        · simp only [isLine, beq_iff_eq] at hl; exact absurd hl h
        · exact h
      rw [hl]
      rcases ih p0 f b c (h.step hl hd) (hfb.back (h.step hl hd)) hg' with ⟨a', b', e1, e2, ⟨pre, e3⟩, e4⟩ | ⟨a', q1, d, r, pre, e1, e2, e3, e4, e5⟩
      · exact Or.inl ⟨a', b', e1, e2, ⟨a :: pre, by rw [e3]; rfl⟩, e4⟩
      · exact Or.inr ⟨a', q1, d, r, a :: pre, e1, e2, by rw [e3]; rfl, e4, e5⟩
    · have hl' : isLine a b c = false := by simpa using hl
      have hbc : b ≠ c := by
        rintro rfl
        exact hl (by simp [isLine, area2])
      rw [hl']
      exact Or.inr ⟨a, b, c, l, [], rfl, rfl, rfl, hfb, hbc⟩

theorem triples_append (x y : Pt) : ∀ (l m : List Pt),
    triples (l ++ x :: y :: m) = triples (l ++ [x, y]) ++ triples (x :: y :: m) := by
  intro l
  induction l with
  | nil => intro m; rfl
  | cons a l ih =>
    intro m
    rcases l with _ | ⟨b, _ | ⟨c, l⟩⟩
    · rfl
    · have := ih m
      simp only [List.cons_append, List.nil_append, triples] at this ⊢
    · have := ih m
      simp only [List.cons_append, triples] at this ⊢
      rw [this]

theorem inner_append (x y : Pt) (l m : List Pt) :
    inner (l ++ x :: y :: m) = inner (l ++ [x, y]) ++ inner (x :: y :: m) := by
  unfold inner; rw [triples_append, List.filter_append, List.map_append]

theorem pathSteps_join {p : Pt} : ∀ {l : List Pt}, l.getLast? = some p → ∀ m : List Pt,
    pathSteps (l ++ m) = pathSteps l ++ pathSteps (p :: m) := by
  intro l
  induction l with
  | nil => intro h; simp at h
  | cons a l ih =>
    intro h m
    cases l with
    | nil =>
      simp only [List.getLast?_singleton, Option.some.injEq] at h
      subst h; rfl
    | cons b l =>
      rw [List.getLast?_cons_cons] at h
      have := ih h m
      rw [List.cons_append, List.cons_append, pathSteps_cons_cons, pathSteps_cons_cons, List.cons_append, ← this]
      rfl

theorem isLine_swap12 (a b c : Pt) : isLine a b c = isLine b a c := by
  unfold isLine area2
  rw [Bool.eq_iff_iff, beq_iff_eq, beq_iff_eq]
  constructor <;> intro h <;> linear_combination -h

theorem isLine_swap13 (a b c : Pt) : isLine a b c = isLine c b a := by
  unfold isLine area2
  rw [Bool.eq_iff_iff, beq_iff_eq, beq_iff_eq]
  constructor <;> intro h <;> linear_combination -h

/-- A contour without spikes registers the edges between its consecutive corners. -/
theorem appendPath_corners (d i : C) (pts : List Pt) (h : NoSpikes pts) :
    appendPath d i pts = (polyEdges (corners pts)).map fun e => withAB e.1 e.2 d i := by
  rcases pts with _ | ⟨q0, _ | ⟨f, rest⟩⟩
  · rfl
  · rfl
  have hsp : ∀ t ∈ triples ((q0 :: f :: rest) ++ [q0, f]), GoesOn t := h
  have hcor : corners (q0 :: f :: rest) = inner ((q0 :: f :: rest) ++ [q0, f]) := rfl
  have key : ∀ a' b' pre, q0 :: f :: rest = pre ++ [a', b'] →
      (∀ t ∈ triples (q0 :: f :: rest), GoesOn t) ∧ GoesOn (a', b', q0) ∧ GoesOn (b', q0, f) ∧
      corners (q0 :: f :: rest) = inner (q0 :: f :: rest) ++ ((if isLine a' b' q0 then [] else [b']) ++
        (if isLine b' q0 f then [] else [q0])) := by
    intro a' b' pre e
    have e' : (q0 :: f :: rest) ++ [q0, f] = pre ++ a' :: b' :: [q0, f] := by rw [e]; simp
    rw [e', triples_append, ← e] at hsp
    refine ⟨fun t ht => hsp t (List.mem_append_left _ ht), hsp _ (List.mem_append_right _ (by simp [triples])),
      hsp _ (List.mem_append_right _ (by simp [triples])), ?_⟩
    rw [hcor, e', inner_append, ← e, inner_cons, inner_cons]
    simp [inner, triples]
  obtain ⟨pre, a', b', epre⟩ : ∃ pre a' b', q0 :: f :: rest = pre ++ [a', b'] := by
    have : ∀ (l : List Pt) (x y : Pt), ∃ pre a b, x :: y :: l = pre ++ [a, b] := by
      intro l
      induction l with
      | nil => intro x y; exact ⟨[], x, y, rfl⟩
      | cons z l ih => intro x y; obtain ⟨pre, a, b, e⟩ := ih y z; exact ⟨x :: pre, a, b, by rw [e]; rfl⟩
    exact this rest q0 f
  obtain ⟨hg, hx, hy, -⟩ := key a' b' pre epre
  have hq0f : q0 ≠ f := by
    rintro rfl
    rcases hy with h | h
    · exact h (by simp [area2])
    · simp [dot] at h
  have goes : ∀ {a b c : Pt}, GoesOn (a, b, c) → isLine a b c = true → 0 < dot b a c b := by
    intro a b c h hl
    rcases h with h | h
    · simp only [isLine, beq_iff_eq] at hl; exact absurd hl h
    · exact h
  unfold appendPath
  dsimp only
  rcases skipLine_corners rest q0 f q0 f (Or.inl ⟨rfl, hq0f⟩) (Or.inl ⟨rfl, hq0f.symm⟩) hg with
    ⟨a, b, e1, e2, ⟨pre1, e3⟩, e4⟩ | ⟨a, q1, c, r, pre1, e1, e2, e3, e4, e5⟩
  · exfalso
    obtain ⟨-, hx, -, -⟩ := key a b pre1 e3
    have hl : isLine q0 b q0 = true := by simp only [isLine, area2, beq_iff_eq]; ring
    have hl' : isLine a b q0 = true := by rw [← e4.line q0]; exact hl
    exact e4.mid hl (goes hx hl') rfl
  · rw [e2]
    dsimp only
    have hg2 : ∀ t ∈ triples (q1 :: c :: r), GoesOn t := by
      intro t ht
      apply hg
      rw [e3]
      have : pre1 ++ a :: q1 :: c :: r = (pre1 ++ [a]) ++ q1 :: c :: r := by simp
      rw [this, triples_append]
      exact List.mem_append_right _ ht
    obtain ⟨a2, m1, m2, ⟨pre2, m3⟩, m4⟩ := mainLoop_corners d i r q1 q1 c (Or.inl ⟨rfl, e5⟩) hg2
    rw [m1]
    generalize (mainLoop d i q1 c r).2.1 = p0 at *
    generalize (mainLoop d i q1 c r).2.2 = p1 at *
    obtain ⟨-, hx, hy, hc⟩ := key a2 p1 (pre1 ++ [a] ++ pre2) (by rw [e3, m3]; simp)
    rw [e1] at hc
    rw [hc]
    have l1 : isLine p0 p1 q0 = isLine a2 p1 q0 := m4.line q0
    have l2 : isLine q0 q1 p1 = isLine p1 q0 f := by
      rw [isLine_swap12, e4.line, isLine_swap13]
    have hp1q1 : isLine p1 q0 f = true → p1 ≠ q1 := by
      intro hl
      have hl2 : isLine q1 q0 p1 = true := by rw [isLine_swap12, l2]; exact hl
      have hd := goes hy hl
      refine (e4.mid hl2 ?_).symm
      unfold dot at hd ⊢
      nlinarith
    have hstep : isLine a2 p1 q0 = true → OnWay p0 p1 q0 := fun hl => m4.step hl (goes hx hl)
    have hp0q1 : isLine a2 p1 q0 = true → isLine p1 q0 f = true → p0 ≠ q1 := by
      intro hl1 hl2
      have w := (hstep hl1).step hl2 (goes hy hl2)
      by_cases hq : q1 = f
      · rw [hq]; exact w.ne.2
      · have sd := e4.dir hq
        have sd' : SameDir (f.x - q0.x) (f.y - q0.y) (q1.x - f.x) (q1.y - f.y) :=
          ⟨by linear_combination -sd.1, by have := sd.2; nlinarith⟩
        refine (w.step (c := q1) ?_ sd'.2).ne.2
        unfold isLine area2
        rw [beq_iff_eq]
        linear_combination -sd'.1
    have tail : ∀ E : List Pt, polyEdges (q1 :: inner (q1 :: c :: r) ++ E) =
        pathSteps (q1 :: inner (q1 :: c :: r)) ++ pathSteps (p0 :: (E ++ [q1])) := by
      intro E
      rw [polyEdges_eq_pathSteps (p := q1) rfl, List.append_assoc, pathSteps_join m2]
    rw [tail, List.map_append]
    congr 1
    unfold closePath
    rw [l1, l2]
    rcases h1 : isLine a2 p1 q0 <;> rcases h2 : isLine p1 q0 f
    · rfl
    · simp only [if_pos, if_neg (Bool.false_ne_true)]
      rw [if_pos (hp1q1 h2)]; rfl
    · simp only [if_pos, if_neg (Bool.false_ne_true)]
      rw [if_pos (hstep h1).ne.2]; rfl
    · simp only [if_pos]
      rw [if_pos (hp0q1 h1 h2)]; rfl

end IOverlay
