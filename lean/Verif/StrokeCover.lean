/-
The winding numbers of the sides of a stroke are those of its parts, less those of the inner triangles of the corners (proofs
for C76).
-/
import Verif.StrokeCorner

namespace IOverlay
open Complex

/-! ### sums over sides -/

theorem pairsOf_sum (g : ℂ → ℂ → Int) : ∀ l : List ℂ, ((pairsOf l).map fun d => g d.1 d.2).sum = chainSum g l := by
  intro l
  induction l with
  | nil => rfl
  | cons a l ih =>
    cases l with
    | nil => rfl
    | cons b l =>
      simp only [pairsOf, List.map_cons, List.sum_cons, chainSum]
      rw [ih]

/-- Quantities of edges that change sign with the direction, and may be divided in the middle. -/
structure SideSum (g : ℂ → ℂ → Int) : Prop where
  anti : ∀ a b, g b a = - g a b
  mid : ∀ v h, g (v - h) (v + h) = g (v - h) v + g v (v + h)

theorem sideSum_wind (z : ℂ) : SideSum fun a b => edgeWindC a b z := by
  refine ⟨fun a b => edgeWindC_swap a b z, fun v h => edgeWindC_line ?_ z⟩
  unfold areaC
  simp only [sub_re, sub_im, add_re, add_im]
  ring

theorem sideSum_pot (f : ℂ → Int) : SideSum fun a b => f b - f a := ⟨fun a b => by ring, fun v h => by ring⟩

theorem chainSum_pot (f : ℂ → Int) : ∀ (l : List ℂ) (a b : ℂ), chainSum (fun a b => f b - f a) (a :: l ++ [b]) = f b - f a := by
  intro l
  induction l with
  | nil => intro a b; simp [chainSum]
  | cons m l ih =>
    intro a b
    have := ih m b
    simp only [List.cons_append, chainSum] at this ⊢
    rw [this]; ring

theorem cycSum_pot (f : ℂ → Int) (l : List ℂ) : cycSum (fun a b => f b - f a) l = 0 := by
  cases l with
  | nil => rfl
  | cons p l => rw [cycSum_cons, chainSum_pot]; ring

section
variable {g : ℂ → ℂ → Int} (hg : SideSum g)

/-- The crossing at the start of a section, from right to left. -/
noncomputable def startCross (g : ℂ → ℂ → Int) (r : ℝ) (u v : ℂ) : Int := g (u - halfLeft r u v) (u + halfLeft r u v)

/-- The crossing at its end. -/
noncomputable def endCross (g : ℂ → ℂ → Int) (r : ℝ) (u v : ℂ) : Int := g (v - halfLeft r u v) (v + halfLeft r u v)

include hg

theorem section_sum (r : ℝ) (u v : ℂ) : ((sectionSides r u v).map fun d => g d.1 d.2).sum =
    cycSum g (sectionRect r u v) - endCross g r u v + startCross g r u v := by
  unfold sectionRect
  rw [cycSum_cons]
  simp only [sectionSides, List.map_cons, List.map_nil, List.sum_cons, List.sum_nil, List.cons_append, List.nil_append, chainSum,
    endCross, startCross]
  rw [hg.anti (u - halfLeft r u v) (u + halfLeft r u v)]
  ring

theorem cycSum_arc (v p q : ℂ) (m : List ℂ) : cycSum g (v :: (p :: m ++ [q])) = g v p + chainSum g (p :: m ++ [q]) + g q v := by
  rw [cycSum_cons]
  have := chainSum_snoc g (v :: p :: m) q v
  have e : v :: (p :: m ++ [q]) ++ [v] = v :: p :: m ++ [q, v] := by simp
  rw [e, this]
  simp only [List.cons_append, chainSum]

theorem corner_sum {toInt : ℂ → Pt} (s : StrokeStyle) {u v w : ℂ} (h1 : u ≠ v) (h2 : v ≠ w) :
    ((cornerSides toInt s u v w).map fun d => g d.1 d.2).sum =
    cycSum g (v :: joinArc toInt s u v w) + cycSum g [v, innerFrom s.radius u v w, innerTo s.radius u v w] -
      (startCross g s.radius v w - endCross g s.radius u v) := by
  obtain ⟨m, hm⟩ := (joinArc_around (toInt := toInt) s h1 h2).ends
  unfold cornerSides
  rw [List.map_append, List.sum_append, pairsOf_sum, hm, cycSum_arc hg, cycSum_cons]
  simp only [List.map_cons, List.map_nil, List.sum_cons, List.sum_nil, List.cons_append, List.nil_append, chainSum, startCross, endCross]
  have m1 := hg.mid v (halfLeft s.radius u v)
  have m2 := hg.mid v (halfLeft s.radius v w)
  have a1 := hg.anti v (v - halfLeft s.radius u v)
  have a2 := hg.anti v (v + halfLeft s.radius u v)
  have a3 := hg.anti v (v - halfLeft s.radius v w)
  have a4 := hg.anti v (v + halfLeft s.radius v w)
  unfold outerFrom outerTo innerFrom innerTo
  by_cases hl : LeftTurn u v w
  · simp only [if_pos hl]
    omega
  · simp only [if_neg hl]
    omega

theorem cap_sum {r : ℝ} (r0 : 0 ≤ r) {cap : LineCap} (hc : cap.Standard) (v : ℂ) {d : ℂ}
    (hd : d.re * d.re + d.im * d.im = 1) :
    ((pairsOf (capShape r cap v d)).map fun e => g e.1 e.2).sum =
      cycSum g (capShape r cap v d) + g (v - I * d * r) (v + I * d * r) ∧
    cycSum g (v :: capShape r cap v d) = cycSum g (capShape r cap v d) := by
  obtain ⟨m, hm⟩ := (capShape_around r0 hc v hd).ends
  have e : cycSum g (capShape r cap v d) = chainSum g (capShape r cap v d) + g (v + I * d * r) (v - I * d * r) := by
    rw [hm]
    have := chainSum_snoc g ((v - I * d * r) :: m) (v + I * d * r) (v - I * d * r)
    rw [List.cons_append, cycSum_cons]
    refine Eq.trans ?_ this
    congr 1
    simp
  constructor
  · rw [pairsOf_sum, e, hg.anti (v - I * d * r) (v + I * d * r)]; ring
  · have e2 := cycSum_arc hg v (v - I * d * r) (v + I * d * r) m
    rw [← hm] at e2
    rw [e2, e]
    have m1 := hg.mid v (I * d * r)
    have a1 := hg.anti v (v - I * d * r)
    have a2 := hg.anti v (v + I * d * r)
    have a3 := hg.anti (v - I * d * r) (v + I * d * r)
    omega

end

/-- The contribution of the strip along the given points: rectangles, joins and inner triangles. -/
noncomputable def stripVal (toInt : ℂ → Pt) (s : StrokeStyle) (g : ℂ → ℂ → Int) : List ℂ → Int
  | u :: v :: w :: l => cycSum g (sectionRect s.radius u v) + cycSum g (v :: joinArc toInt s u v w) +
      cycSum g [v, innerFrom s.radius u v w, innerTo s.radius u v w] + stripVal toInt s g (v :: w :: l)
  | [u, v] => cycSum g (sectionRect s.radius u v)
  | _ => 0

theorem stripVal_pot {toInt : ℂ → Pt} (s : StrokeStyle) (f : ℂ → Int) : ∀ (l : List ℂ),
    stripVal toInt s (fun a b => f b - f a) l = 0 := by
  intro l
  induction l with
  | nil => rfl
  | cons u l ih =>
    cases l with
    | nil => rfl
    | cons v l =>
      cases l with
      | nil => rw [stripVal, cycSum_pot]
      | cons w l => rw [stripVal, cycSum_pot, cycSum_pot, cycSum_pot, ih]; rfl

theorem strip_sum {toInt : ℂ → Pt} {g : ℂ → ℂ → Int} (hg : SideSum g) (s : StrokeStyle) : ∀ (l : List ℂ) (u v : ℂ),
    (u :: v :: l).IsChain (· ≠ ·) → ∀ {a b : ℂ}, [a, b] <:+ u :: v :: l →
    ((stripSides toInt s (u :: v :: l)).map fun d => g d.1 d.2).sum =
      stripVal toInt s g (u :: v :: l) + startCross g s.radius u v - endCross g s.radius a b := by
  intro l
  induction l with
  | nil =>
    intro u v _ a b hab
    have := hab.eq_of_length rfl
    simp only [List.cons.injEq, and_true] at this
    obtain ⟨rfl, rfl⟩ := this
    rw [stripSides, section_sum hg, stripVal]
    ring
  | cons w l ih =>
    intro u v hc a b hab
    have hc' := hc
    rw [List.isChain_cons_cons] at hc
    have hvw := (List.isChain_cons_cons.1 hc.2).1
    have hab' : [a, b] <:+ v :: w :: l := by
      rcases List.suffix_cons_iff.1 hab with h | h
      · have := congrArg List.length h; simp at this
      · exact h
    rw [stripSides, List.map_append, List.sum_append, List.map_append, List.sum_append, section_sum hg,
      corner_sum hg s hc.1 hvw, ih v w hc.2 hab', stripVal]
    ring

end IOverlay
