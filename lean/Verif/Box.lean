/-
Splitting never leaves the bounding box.
-/
import Verif.SplitLoop
import Verif.Props.CrossPoint

namespace IOverlay

variable {C : Type}

/-- A closed box of integer points. -/
structure Box where
  x0 : Int
  x1 : Int
  y0 : Int
  y1 : Int

def Box.Has (B : Box) (p : Pt) : Prop := B.x0 ≤ p.x ∧ p.x ≤ B.x1 ∧ B.y0 ≤ p.y ∧ p.y ≤ B.y1

def Box.HasSeg (B : Box) (s : Seg C) : Prop := B.Has s.a ∧ B.Has s.b

theorem Box.onSeg {B : Box} {a b p : Pt} (ha : B.Has a) (hb : B.Has b) (h : IOverlay.onSeg p.q a b) : B.Has p := by
  obtain ⟨h1, h2, h3, h4⟩ := onSeg_bounds h
  unfold Pt.q at h1 h2 h3 h4
  dsimp only at h1 h2 h3 h4
  have h1 : min a.x b.x ≤ p.x := by exact_mod_cast h1
  have h2 : p.x ≤ max a.x b.x := by exact_mod_cast h2
  have h3 : min a.y b.y ≤ p.y := by exact_mod_cast h3
  have h4 : p.y ≤ max a.y b.y := by exact_mod_cast h4
  unfold Box.Has at *
  omega

/-- What a mark is: an end of one of the two edges, a point of them, or the rounded crossing point of a proper
crossing. -/
theorem crossMarks_point {p : EPair} (hi : p.ei.a ≠ p.ei.b) (hj : p.ej.a ≠ p.ej.b) {radius : Int} (hr : 0 ≤ radius)
    {m : Mark} (hm : m ∈ (crossMarks radius p).1) :
    m.point = p.ei.a ∨ m.point = p.ei.b ∨ m.point = p.ej.a ∨ m.point = p.ej.b ∨ onSeg m.point.q p.ei.a p.ei.b ∨
    (m.point = crossPoint p.ei p.ej ∧ Opp (area2 p.ei.a p.ei.b p.ej.a) (area2 p.ei.a p.ei.b p.ej.b) ∧
      Opp (area2 p.ej.a p.ej.b p.ei.a) (area2 p.ej.a p.ej.b p.ei.b)) := by
  unfold crossMarks at hm
  have sp := cross_spec p.ei p.ej hi hj radius
  generalize cross p.ei p.ej radius = r at sp hm
  cases sp with
  | overlay h =>
    dsimp only at hm
    split at hm
    · simp at hm
    · simp only [List.mem_append] at hm
      have h1 : ∀ (b : Bool) (m n : Mark), m ∈ (if b then [n] else []) → m = n := by
        intro b m n; cases b <;> simp
      rcases hm with ((hm | hm) | hm) | hm <;> rw [h1 _ _ _ hm] <;> simp
  | none h => simp at hm
  | otherEnd q h he => simp at hm; subst hm; dsimp only; tauto
  | targetEnd q h he => simp at hm; subst hm; dsimp only; tauto
  | middle h1 h2 =>
    have ms := middleCross_spec h1 h2 hr
    generalize middleCross p.ei p.ej radius = r at ms hm
    cases ms with
    | exact q a b =>
      simp at hm
      rcases hm with rfl | rfl <;> exact Or.inr (Or.inr (Or.inr (Or.inr (Or.inl a.on))))
    | round q e =>
      simp at hm
      rcases hm with rfl | rfl <;> exact Or.inr (Or.inr (Or.inr (Or.inr (Or.inr ⟨e, h1, h2⟩))))
    | target q e => simp at hm; subst hm; dsimp only; tauto
    | other q e => simp at hm; subst hm; dsimp only; tauto

/-- Marks stay in every box containing the two edges. -/
theorem crossMarks_box {p : EPair} (hi : p.ei.a ≠ p.ei.b) (hj : p.ej.a ≠ p.ej.b) {radius : Int} (hr : 0 ≤ radius)
    (r1 : InRange p.ei.a) (r2 : InRange p.ei.b) (r3 : InRange p.ej.a) (r4 : InRange p.ej.b) {B : Box}
    (b1 : B.Has p.ei.a) (b2 : B.Has p.ei.b) (b3 : B.Has p.ej.a) (b4 : B.Has p.ej.b) {m : Mark}
    (hm : m ∈ (crossMarks radius p).1) : B.Has m.point := by
  rcases crossMarks_point hi hj hr hm with h | h | h | h | h | ⟨h, o1, o2⟩
  · rw [h]; exact b1
  · rw [h]; exact b2
  · rw [h]; exact b3
  · rw [h]; exact b4
  · exact Box.onSeg b1 b2 h
  · obtain ⟨P, -, -, -, -, -, hb, -⟩ := C17_crossing_accuracy p.ei p.ej o1 o2 r1 r2 r3 r4
    obtain ⟨c1, c2, c3, c4⟩ := hb p.ei (by simp)
    rw [h]
    unfold Box.Has at *
    omega

theorem chainSegs_ends [WindingCount C] (c : C) (b p : Pt) (l : List Pt) (P : Pt → Prop) (hp : P p) (hb : P b)
    (hl : ∀ q ∈ l, P q) : ∀ e ∈ chainSegs c b p l, P e.a ∧ P e.b := by
  have key : ∀ u v : Pt, P u → P v → P (createValidate u v c).a ∧ P (createValidate u v c).b := by
    intro u v hu hv
    unfold createValidate
    split
    · exact ⟨hu, hv⟩
    · exact ⟨hv, hu⟩
  induction l generalizing p with
  | nil => intro e he; rw [chainSegs, List.mem_singleton] at he; subst he; exact key _ _ hp hb
  | cons q l ih =>
    intro e he
    rw [chainSegs] at he
    rcases List.mem_cons.1 he with rfl | he
    · exact key _ _ hp (hl q (by simp))
    · exact ih q (hl q (by simp)) (fun q' h => hl q' (by simp [h])) e he

/-- Every end of the edges after splitting is an end of an edge before, or a mark. -/
theorem applyMarks_ends [WindingCount C] (marks : List Mark) (segs : List (Seg C)) (P : Pt → Prop)
    (hs : ∀ s ∈ segs, P s.a ∧ P s.b) (hm : ∀ m ∈ marks, P m.point) : ∀ e ∈ applyMarks marks segs, P e.a ∧ P e.b := by
  intro e he
  obtain ⟨e', h1, h2, h3⟩ := mergeIfNeeded_edges _ e he
  rw [(sortSegs_perm _).mem_iff] at h1
  rw [h2, h3]
  obtain ⟨i, s, h4, h5⟩ := (mem_splitAll _ _ _ _).1 h1
  have hs' := hs s (List.mem_of_getElem? h4)
  unfold splitSeg at h5
  split at h5
  · rw [List.mem_singleton] at h5; subst h5; exact hs'
  · rename_i m rest hpt
    refine chainSegs_ends s.c s.b s.a _ P hs'.1 hs'.2 ?_ e' h5
    intro q hq
    have := (subSort_perm _ _ _ _).mem_iff.1 hq
    rw [← hpt, mem_pointsOf] at this
    exact hm _ this

/-- Every edge in the range and in the box. -/
def Boxed (B : Box) (segs : List (Seg C)) : Prop := ∀ s ∈ segs, B.HasSeg s

theorem roundMarks_box {segs : List (Seg C)} {pairs : List EPair} {radius : Int} {B : Box}
    (hl : ∀ s ∈ segs, s.a < s.b) (hc : Covers pairs segs) (hr : 0 ≤ radius) (hB : Boxed B segs)
    (hR : ∀ s ∈ segs, InRange s.a ∧ InRange s.b) :
    ∀ m ∈ (roundMarks radius pairs).1, B.Has m.point := by
  intro m hm
  obtain ⟨p, hp, hm⟩ := List.mem_flatMap.1 hm
  obtain ⟨n1, n2⟩ := pair_nondeg hl hc hr hp
  obtain ⟨-, ⟨s, h1, e1⟩, ⟨t, h2, e2⟩⟩ := hc.sound p hp
  have s1 := List.mem_of_getElem? h1
  have t1 := List.mem_of_getElem? h2
  refine crossMarks_box n1 n2 hr ?_ ?_ ?_ ?_ ?_ ?_ ?_ ?_ hm
  · rw [e1]; exact (hR s s1).1
  · rw [e1]; exact (hR s s1).2
  · rw [e2]; exact (hR t t1).1
  · rw [e2]; exact (hR t t1).2
  · rw [e1]; exact (hB s s1).1
  · rw [e1]; exact (hB s s1).2
  · rw [e2]; exact (hB t t1).1
  · rw [e2]; exact (hB t t1).2

end IOverlay
