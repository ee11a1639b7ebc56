/-
C81: the axes are not special. Mirroring the input or turning it by quarter turns mirrors or turns the result, when the edges
cross in whole points.
-/
import Verif.Direction
import Verif.StrokeRun
import Verif.Props.Total

namespace IOverlay

/-! ### specification -/

/-- Mirrored at the x axis. -/
def Pt.flip (p : Pt) : Pt := ⟨p.x, -p.y⟩
/-- Mirrored at the diagonal: the coordinates exchanged. -/
def Pt.transpose (p : Pt) : Pt := ⟨p.y, p.x⟩
/-- Turned clockwise by a quarter turn. -/
def Pt.quarter (p : Pt) : Pt := ⟨p.y, -p.x⟩
/-- Mirrored at the x axis. -/
def QPt.flip (q : QPt) : QPt := ⟨q.x, -q.y⟩
/-- Mirrored at the diagonal: the coordinates exchanged. -/
def QPt.transpose (q : QPt) : QPt := ⟨q.y, q.x⟩
/-- Turned clockwise by a quarter turn. -/
def QPt.quarter (q : QPt) : QPt := ⟨q.y, -q.x⟩

/-- The point lies on none of the edges of the contours. -/
def AwayFromEdges (cs : List (List Pt)) (q : QPt) : Prop := ∀ c ∈ cs, ∀ e ∈ polyEdges c, ¬ onSeg q e.1 e.2

/-! ### winding numbers -/

/-- The product that vanishes exactly if the point is on the line through `u` and `v`. -/
def lineSide (u v : Pt) (q : QPt) : ℚ := (v.x - q.x) * (q.y - u.y) + (q.x - u.x) * (q.y - v.y)

theorem aboveLine_side (u v : Pt) (q : QPt) : aboveLine u v q ↔ 0 < lineSide u v q := by
  unfold aboveLine lineSide
  rw [← sub_pos]
  constructor <;> intro h <;> linarith

theorem aboveLine_side' (u v : Pt) (q : QPt) : aboveLine v u q ↔ lineSide u v q < 0 := by
  unfold aboveLine lineSide
  rw [← sub_pos]
  constructor <;> intro h <;> linarith

theorem onSeg_column {u v : Pt} {q : QPt} (h1 : (u.x : ℚ) ≤ q.x) (h2 : q.x < v.x) (h : lineSide u v q = 0) : onSeg q u v := by
  have hp : (0 : ℚ) < v.x - u.x := by linarith
  refine ⟨(q.x - u.x) / (v.x - u.x), by apply div_nonneg <;> linarith, by rw [div_le_one hp]; linarith, ?_, ?_⟩
  · rw [div_mul_cancel₀ _ (ne_of_gt hp)]; ring
  · unfold lineSide at h
    field_simp
    linear_combination h

theorem onSeg_symm' {u v : Pt} {q : QPt} (h : onSeg q u v) : onSeg q v u := by
  obtain ⟨t, t0, t1, hx, hy⟩ := h
  refine ⟨1 - t, by linarith, by linarith, ?_, ?_⟩
  · rw [hx]; ring
  · rw [hy]; ring

theorem lineSide_symm (u v : Pt) (q : QPt) : lineSide v u q = - lineSide u v q := by unfold lineSide; ring

theorem lineSide_transpose (u v : Pt) (q : QPt) : lineSide u.transpose v.transpose q.transpose = - lineSide u v q := by
  simp only [lineSide, Pt.transpose, QPt.transpose]; ring

theorem onSeg_transpose {u v : Pt} {q : QPt} (h : onSeg q.transpose u.transpose v.transpose) : onSeg q u v := by
  obtain ⟨t, t0, t1, hx, hy⟩ := h
  exact ⟨t, t0, t1, hy, hx⟩

theorem side_ne {u v : Pt} {q : QPt} (h : ¬ onSeg q u v)
    (hc : ((u.x : ℚ) ≤ q.x ∧ q.x < v.x) ∨ ((v.x : ℚ) ≤ q.x ∧ q.x < u.x)) : lineSide u v q ≠ 0 := by
  intro e
  rcases hc with ⟨h1, h2⟩ | ⟨h1, h2⟩
  · exact h (onSeg_column h1 h2 e)
  · exact h (onSeg_symm' (onSeg_column h1 h2 (by rw [lineSide_symm, e, neg_zero])))

theorem side_ne' {u v : Pt} {q : QPt} (h : ¬ onSeg q u v)
    (hc : ((u.y : ℚ) ≤ q.y ∧ q.y < v.y) ∨ ((v.y : ℚ) ≤ q.y ∧ q.y < u.y)) : lineSide u v q ≠ 0 := by
  have := side_ne (u := u.transpose) (v := v.transpose) (q := q.transpose) (fun e => h (onSeg_transpose e)) hc
  rw [lineSide_transpose] at this
  exact neg_ne_zero.1 this

theorem edgeWind_side (u v : Pt) (q : QPt) : edgeWind u v q =
    if (u.x : ℚ) ≤ q.x ∧ q.x < v.x ∧ 0 < lineSide u v q then 1
    else if (v.x : ℚ) ≤ q.x ∧ q.x < u.x ∧ lineSide u v q < 0 then -1 else 0 := by
  unfold edgeWind
  simp only [aboveLine_side u v, aboveLine_side' u v]

open Classical in
/-- Mirrored, an edge contributes what it does not contribute before, up to a term that telescopes. -/
theorem edgeWind_flip {u v : Pt} {q : QPt} (h : ¬ onSeg q u v) :
    edgeWind u.flip v.flip q.flip + edgeWind u v q = (if (u.x : ℚ) ≤ q.x then 1 else 0) - if (v.x : ℚ) ≤ q.x then 1 else 0 := by
  have e : lineSide u.flip v.flip q.flip = - lineSide u v q := by
    simp only [lineSide, Pt.flip, QPt.flip, Int.cast_neg]; ring
  have n := side_ne h
  rw [edgeWind_side, edgeWind_side, e]
  simp only [Pt.flip, QPt.flip, Left.neg_pos_iff, Left.neg_neg_iff]
  by_cases h1 : (u.x : ℚ) ≤ q.x <;> by_cases h2 : (v.x : ℚ) ≤ q.x
  · simp [h1, h2, not_lt.2 h1, not_lt.2 h2]
  · have hl := not_le.1 h2
    rcases lt_or_gt_of_ne (n (Or.inl ⟨h1, hl⟩)) with hs | hs
    · simp [h1, h2, hl, hs, not_lt.2 (le_of_lt hs)]
    · simp [h1, h2, hl, hs, not_lt.2 (le_of_lt hs)]
  · have hl := not_le.1 h1
    rcases lt_or_gt_of_ne (n (Or.inr ⟨h2, hl⟩)) with hs | hs
    · simp [h1, h2, hl, hs, not_lt.2 (le_of_lt hs)]
    · simp [h1, h2, hl, hs, not_lt.2 (le_of_lt hs)]
  · simp [h1, h2]

open Classical in
/-- The rays down and to the left bound a quadrant; what an edge contributes to the two counts is by how much it leaves it. -/
theorem edgeWind_transpose {u v : Pt} {q : QPt} (h : ¬ onSeg q u v) :
    edgeWind u.transpose v.transpose q.transpose + edgeWind u v q =
      (if (u.x : ℚ) ≤ q.x ∧ (u.y : ℚ) ≤ q.y then 1 else 0) - if (v.x : ℚ) ≤ q.x ∧ (v.y : ℚ) ≤ q.y then 1 else 0 := by
  have n : (((u.x : ℚ) ≤ q.x ∧ q.x < v.x) ∨ ((v.x : ℚ) ≤ q.x ∧ q.x < u.x)) ∨
      (((u.y : ℚ) ≤ q.y ∧ q.y < v.y) ∨ ((v.y : ℚ) ≤ q.y ∧ q.y < u.y)) → lineSide u v q ≠ 0 := fun hc =>
    hc.elim (side_ne h) (side_ne' h)
  rw [edgeWind_side, edgeWind_side, lineSide_transpose]
  simp only [Pt.transpose, QPt.transpose, Left.neg_pos_iff, Left.neg_neg_iff]
  have hA : lineSide u v q = (v.x - q.x) * (q.y - u.y) + (q.x - u.x) * (q.y - v.y) := rfl
  generalize lineSide u v q = A at *
  simp only [← not_le (a := (v.x : ℚ)), ← not_le (a := (u.x : ℚ)), ← not_le (a := (v.y : ℚ)), ← not_le (a := (u.y : ℚ))] at n ⊢
  by_cases h1 : (u.x : ℚ) ≤ q.x <;> by_cases h2 : (v.x : ℚ) ≤ q.x <;> by_cases h3 : (u.y : ℚ) ≤ q.y <;>
    by_cases h4 : (v.y : ℚ) ≤ q.y <;> simp only [h1, h2, h3, h4, not_true_eq_false, not_false_eq_true, true_and, and_true,
      false_and, and_false, if_true, if_false, or_false, false_or, or_true, true_or, forall_const, or_self] at n ⊢ <;>
    rcases lt_trichotomy A 0 with hs | hs | hs <;>
    first
    | (simp [hs]; done)
    | (simp [hs, not_lt.2 (le_of_lt hs)]; done)
    | (exfalso; exact n hs)
    | (exfalso
       try rw [not_le] at h1
       try rw [not_le] at h2
       try rw [not_le] at h3
       try rw [not_le] at h4
       nlinarith [mul_nonneg (abs_nonneg ((v.x : ℚ) - q.x)) (abs_nonneg (q.y - u.y)), h1, h2, h3, h4, hA, hs])

open Classical in
theorem polyWind_flip {c : List Pt} {q : QPt} (h : ∀ e ∈ polyEdges c, ¬ onSeg q e.1 e.2) :
    ((polyEdges c).map fun e => edgeWind e.1.flip e.2.flip q.flip).sum = - polyWind c q := by
  have t := polyEdges_telescope (fun p => if (p.x : ℚ) ≤ q.x then 1 else 0) c
  rw [List.map_congr_left (g := fun e => edgeWind e.1.flip e.2.flip q.flip + edgeWind e.1 e.2 q)
    (fun e he => (edgeWind_flip (h e he)).symm), List.sum_map_add] at t
  unfold polyWind
  omega

open Classical in
theorem polyWind_transpose {c : List Pt} {q : QPt} (h : ∀ e ∈ polyEdges c, ¬ onSeg q e.1 e.2) :
    ((polyEdges c).map fun e => edgeWind e.1.transpose e.2.transpose q.transpose).sum = - polyWind c q := by
  have t := polyEdges_telescope (fun p => if (p.x : ℚ) ≤ q.x ∧ (p.y : ℚ) ≤ q.y then 1 else 0) c
  rw [List.map_congr_left (g := fun e => edgeWind e.1.transpose e.2.transpose q.transpose + edgeWind e.1 e.2 q)
    (fun e he => (edgeWind_transpose (h e he)).symm), List.sum_map_add] at t
  unfold polyWind
  omega

/-! ### symmetries of the plane that map whole points to whole points -/

/-- A symmetry `σ` of the plane that keeps the range of coordinates, with its effect on rational points and on winding numbers
(`true`: they are negated). -/
structure Symmetry (σ : Pt → Pt) (τ : QPt → QPt) (neg : Bool) : Prop where
  inj : ∀ p q, σ p = σ q → p = q
  range : ∀ p, InRange p → InRange (σ p)
  onto : ∀ q, ∃ q', q = τ q'
  whole : ∀ q, (∃ p : Pt, q = p.q) → ∃ p : Pt, τ q = p.q
  inSeg : ∀ q a b, inSeg (τ q) (σ a) (σ b) → inSeg q a b
  area : ∀ a b c, area2 a b c = 0 → area2 (σ a) (σ b) (σ c) = 0
  wind : ∀ c q, (∀ e ∈ polyEdges c, ¬ onSeg q e.1 e.2) →
    ((polyEdges c).map fun e => edgeWind (σ e.1) (σ e.2) (τ q)).sum = if neg then - polyWind c q else polyWind c q

theorem symmetry_flip : Symmetry Pt.flip QPt.flip true where
  inj := by
    rintro ⟨a, b⟩ ⟨c, d⟩ h
    simp only [Pt.flip, Pt.mk.injEq, neg_inj] at h
    rw [h.1, h.2]
  range := by
    rintro ⟨a, b⟩ h
    simp only [InRange, Pt.flip] at *
    omega
  onto q := ⟨q.flip, by simp [QPt.flip]⟩
  whole := by
    rintro _ ⟨p, rfl⟩
    exact ⟨p.flip, by simp [QPt.flip, Pt.flip, Pt.q]⟩
  inSeg := by
    rintro q a b ⟨t, t0, t1, hx, hy⟩
    refine ⟨t, t0, t1, hx, ?_⟩
    simp only [QPt.flip, Pt.flip, Int.cast_neg] at hy
    linear_combination -hy
  area a b c h := by
    simp only [area2, Pt.flip] at *
    linear_combination -h
  wind c q h := polyWind_flip h

theorem symmetry_transpose : Symmetry Pt.transpose QPt.transpose true where
  inj := by
    rintro ⟨a, b⟩ ⟨c, d⟩ h
    simp only [Pt.transpose, Pt.mk.injEq] at h
    rw [h.1, h.2]
  range := by
    rintro ⟨a, b⟩ h
    simp only [InRange, Pt.transpose] at *
    omega
  onto q := ⟨q.transpose, rfl⟩
  whole := by
    rintro _ ⟨p, rfl⟩
    exact ⟨p.transpose, rfl⟩
  inSeg := by
    rintro q a b ⟨t, t0, t1, hx, hy⟩
    exact ⟨t, t0, t1, hy, hx⟩
  area a b c h := by
    simp only [area2, Pt.transpose] at *
    linear_combination -h
  wind c q h := polyWind_transpose h

theorem polyEdges_through (σ : Pt → Pt) (c : List Pt) : polyEdges (c.map σ) = (polyEdges c).map fun e => (σ e.1, σ e.2) := by
  cases c with
  | nil => rfl
  | cons p ps =>
    simp only [polyEdges, List.map_cons]
    rw [show ps.map σ ++ [σ p] = (ps ++ [p]).map σ by simp, ← List.map_cons, List.zip_map]
    rfl

theorem symmetry_quarter : Symmetry Pt.quarter QPt.quarter false where
  inj := by
    rintro ⟨a, b⟩ ⟨c, d⟩ h
    simp only [Pt.quarter, Pt.mk.injEq, neg_inj] at h
    rw [h.1, h.2]
  range := by
    rintro ⟨a, b⟩ h
    simp only [InRange, Pt.quarter] at *
    omega
  onto q := ⟨⟨-q.y, q.x⟩, by simp [QPt.quarter]⟩
  whole := by
    rintro _ ⟨p, rfl⟩
    exact ⟨p.quarter, by simp [QPt.quarter, Pt.quarter, Pt.q]⟩
  inSeg := by
    rintro q a b ⟨t, t0, t1, hx, hy⟩
    refine ⟨t, t0, t1, ?_, hx⟩
    simp only [QPt.quarter, Pt.quarter, Int.cast_neg] at hy
    linear_combination -hy
  area a b c h := by
    simp only [area2, Pt.quarter] at *
    linear_combination h
  wind c q h := by
    have h' : ∀ e ∈ polyEdges (c.map Pt.transpose), ¬ onSeg q.transpose e.1 e.2 := by
      intro e he
      rw [polyEdges_through] at he
      obtain ⟨f, hf, rfl⟩ := List.mem_map.1 he
      exact fun ho => h f hf (onSeg_transpose ho)
    have a := polyWind_flip h'
    have b := polyWind_transpose h
    unfold polyWind at a
    rw [polyEdges_through, List.map_map, List.map_map] at a
    simp only [Function.comp_def] at a
    simp only [Bool.false_eq_true, if_false]
    rw [b, neg_neg] at a
    exact a

/-! ### the claim -/

theorem Symmetry.polysWind {σ : Pt → Pt} {τ : QPt → QPt} {neg : Bool} (S : Symmetry σ τ neg) {cs : List (List Pt)} {q : QPt}
    (h : AwayFromEdges cs q) : polysWind (cs.map (List.map σ)) (τ q) = if neg then - IOverlay.polysWind cs q else IOverlay.polysWind cs q := by
  induction cs with
  | nil => cases neg <;> rfl
  | cons c cs ih =>
    have e : ∀ (d : List Pt) (ds : List (List Pt)) (q : QPt), IOverlay.polysWind (d :: ds) q = polyWind d q + IOverlay.polysWind ds q :=
      fun d ds q => List.sum_cons
    rw [List.map_cons, e, e, ih fun c hc => h c (List.mem_cons_of_mem _ hc)]
    have w := S.wind c q (h c (by simp))
    have : polyWind (c.map σ) (τ q) = if neg then - polyWind c q else polyWind c q := by
      rw [← w]
      unfold polyWind
      rw [polyEdges_through, List.map_map]
      rfl
    rw [this]
    cases neg
    · simp
    · simp only [if_true]; ring

theorem Symmetry.wholeCrossings {σ : Pt → Pt} {τ : QPt → QPt} {neg : Bool} (S : Symmetry σ τ neg) {es : List (Pt × Pt)}
    (h : WholeCrossings es) : WholeCrossings (es.map fun e => (σ e.1, σ e.2)) := by
  intro e' he' f' hf' hne q h1 h2
  obtain ⟨e, he, rfl⟩ := List.mem_map.1 he'
  obtain ⟨f, hf, rfl⟩ := List.mem_map.1 hf'
  obtain ⟨q, rfl⟩ := S.onto q
  exact S.whole q (h e he f hf (hne.imp (fun z w => z (S.area _ _ _ w)) fun z w => z (S.area _ _ _ w)) q
    (S.inSeg _ _ _ h1) (S.inSeg _ _ _ h2))

/-- C81, for any of the symmetries: the result for the transformed input, at the transformed point, is the result for the
given input. Mirrored contours turn the other way, so `Positive` and `Negative` change places. -/
theorem C81_symmetry {σ : Pt → Pt} {τ : QPt → QPt} {neg : Bool} (S : Symmetry σ τ neg) {k k' : Config} {x x' : Externals}
    (ha : Assumed k x) (ha' : Assumed k' x') {subj clip : List (List Pt)} (hf : FragFor k subj clip)
    (hf' : FragFor k' (subj.map (List.map σ)) (clip.map (List.map σ))) (hns : ∀ c ∈ subj ++ clip, NotClosedExplicitly c)
    (hin : ∀ c ∈ subj ++ clip, ∀ p ∈ c, InRange p) (hw : WholeCrossings ((subj ++ clip).flatMap polyEdges))
    (r : OverlayRule) (rule : FillRule) (cw : Bool) {shapes shapes' : List (List (List Pt))}
    (hs : overlayCustom k x r rule cw 0 (overlaySegments subj clip) = some shapes)
    (hs' : overlayCustom k' x' r (if neg then rule.opposite else rule) cw 0
      (overlaySegments (subj.map (List.map σ)) (clip.map (List.map σ))) = some shapes')
    {q : QPt} (hq : AwayFromEdges (subj ++ clip) q) :
    IOverlay.polysWind shapes'.flatten (τ q) = IOverlay.polysWind shapes.flatten q := by
  have edges : ∀ cs : List (List Pt), (cs.map (List.map σ)).flatMap polyEdges =
      (cs.flatMap polyEdges).map fun e => (σ e.1, σ e.2) := by
    intro cs
    induction cs with
    | nil => rfl
    | cons c cs ih => rw [List.map_cons, List.flatMap_cons, List.flatMap_cons, List.map_append, ih, polyEdges_through]
  have nc : ∀ {cs : List (List Pt)}, (∀ c ∈ cs, NotClosedExplicitly c) → ∀ c ∈ cs.map (List.map σ), NotClosedExplicitly c := by
    intro cs hcs c hc
    obtain ⟨d, hd, rfl⟩ := List.mem_map.1 hc
    intro hl e
    rw [List.length_map] at hl
    apply hcs d hd hl
    rw [List.head?_map, List.getLast?_map] at e
    exact Option.map_injective (fun p q => S.inj p q) e
  have n1 : ∀ c ∈ subj, NotClosedExplicitly c := fun c hc => hns c (List.mem_append_left _ hc)
  have n2 : ∀ c ∈ clip, NotClosedExplicitly c := fun c hc => hns c (List.mem_append_right _ hc)
  rw [C56_overlay k x ha r rule cw subj clip hf n1 n2 hin hw shapes hs,
    C56_overlay k' x' ha' r _ cw _ _ hf' (nc n1) (nc n2)
      (by
        rw [← List.map_append]
        intro c hc p hp
        obtain ⟨d, hd, rfl⟩ := List.mem_map.1 hc
        obtain ⟨p', hp', rfl⟩ := List.mem_map.1 hp
        exact S.range p' (hin d hd p' hp'))
      (by
        rw [← List.map_append, edges]
        exact S.wholeCrossings hw) shapes' hs',
    S.polysWind fun c hc => hq c (List.mem_append_left _ hc), S.polysWind fun c hc => hq c (List.mem_append_right _ hc)]
  cases neg
  · rfl
  · simp only [if_true, inside_neg]
    have : rule.opposite.opposite = rule := by cases rule <;> rfl
    rw [this]

/-- C81 (mirroring at the x axis). -/
theorem C81_flip {k k' : Config} {x x' : Externals} (ha : Assumed k x) (ha' : Assumed k' x') {subj clip : List (List Pt)}
    (hf : FragFor k subj clip) (hf' : FragFor k' (subj.map (List.map Pt.flip)) (clip.map (List.map Pt.flip)))
    (hns : ∀ c ∈ subj ++ clip, NotClosedExplicitly c) (hin : ∀ c ∈ subj ++ clip, ∀ p ∈ c, InRange p)
    (hw : WholeCrossings ((subj ++ clip).flatMap polyEdges)) (r : OverlayRule) (rule : FillRule) (cw : Bool)
    {shapes shapes' : List (List (List Pt))} (hs : overlayCustom k x r rule cw 0 (overlaySegments subj clip) = some shapes)
    (hs' : overlayCustom k' x' r rule.opposite cw 0
      (overlaySegments (subj.map (List.map Pt.flip)) (clip.map (List.map Pt.flip))) = some shapes')
    {q : QPt} (hq : AwayFromEdges (subj ++ clip) q) : polysWind shapes'.flatten q.flip = polysWind shapes.flatten q :=
  C81_symmetry symmetry_flip ha ha' hf hf' hns hin hw r rule cw hs hs' hq

/-- C81 (mirroring at the diagonal). -/
theorem C81_transpose {k k' : Config} {x x' : Externals} (ha : Assumed k x) (ha' : Assumed k' x') {subj clip : List (List Pt)}
    (hf : FragFor k subj clip) (hf' : FragFor k' (subj.map (List.map Pt.transpose)) (clip.map (List.map Pt.transpose)))
    (hns : ∀ c ∈ subj ++ clip, NotClosedExplicitly c) (hin : ∀ c ∈ subj ++ clip, ∀ p ∈ c, InRange p)
    (hw : WholeCrossings ((subj ++ clip).flatMap polyEdges)) (r : OverlayRule) (rule : FillRule) (cw : Bool)
    {shapes shapes' : List (List (List Pt))} (hs : overlayCustom k x r rule cw 0 (overlaySegments subj clip) = some shapes)
    (hs' : overlayCustom k' x' r rule.opposite cw 0
      (overlaySegments (subj.map (List.map Pt.transpose)) (clip.map (List.map Pt.transpose))) = some shapes')
    {q : QPt} (hq : AwayFromEdges (subj ++ clip) q) : polysWind shapes'.flatten q.transpose = polysWind shapes.flatten q :=
  C81_symmetry symmetry_transpose ha ha' hf hf' hns hin hw r rule cw hs hs' hq

/-- C81 (a quarter turn; repeating it gives the others). -/
theorem C81_quarter {k k' : Config} {x x' : Externals} (ha : Assumed k x) (ha' : Assumed k' x') {subj clip : List (List Pt)}
    (hf : FragFor k subj clip) (hf' : FragFor k' (subj.map (List.map Pt.quarter)) (clip.map (List.map Pt.quarter)))
    (hns : ∀ c ∈ subj ++ clip, NotClosedExplicitly c) (hin : ∀ c ∈ subj ++ clip, ∀ p ∈ c, InRange p)
    (hw : WholeCrossings ((subj ++ clip).flatMap polyEdges)) (r : OverlayRule) (rule : FillRule) (cw : Bool)
    {shapes shapes' : List (List (List Pt))} (hs : overlayCustom k x r rule cw 0 (overlaySegments subj clip) = some shapes)
    (hs' : overlayCustom k' x' r rule cw 0
      (overlaySegments (subj.map (List.map Pt.quarter)) (clip.map (List.map Pt.quarter))) = some shapes')
    {q : QPt} (hq : AwayFromEdges (subj ++ clip) q) : polysWind shapes'.flatten q.quarter = polysWind shapes.flatten q :=
  C81_symmetry symmetry_quarter ha ha' hf hf' hns hin hw r rule cw hs hs' hq

/-! ### examples -/

/-- A point off the line through an edge is off the edge. -/
theorem offEdges_of_side {cs : List (List Pt)} {q : QPt} (h : ∀ c ∈ cs, ∀ e ∈ polyEdges c, lineSide e.1 e.2 q ≠ 0) :
    AwayFromEdges cs q := by
  rintro c hc e he ⟨t, -, -, hx, hy⟩
  apply h c hc e he
  unfold lineSide
  rw [hx, hy]
  ring

/-- Crossing triangles with whole crossings, their mirror image and turned copy meet the hypotheses, and there are points off
their edges. -/
example : Assumed exConfig exRaw ∧ FragFor exConfig exWhole.1 exWhole.2 ∧
    FragFor exConfig (exWhole.1.map (List.map Pt.quarter)) (exWhole.2.map (List.map Pt.quarter)) ∧
    FragFor exConfig (exWhole.1.map (List.map Pt.flip)) (exWhole.2.map (List.map Pt.flip)) ∧
    (∀ c ∈ exWhole.1 ++ exWhole.2, NotClosedExplicitly c) ∧ (∀ c ∈ exWhole.1 ++ exWhole.2, ∀ p ∈ c, InRange p) ∧
    WholeCrossings ((exWhole.1 ++ exWhole.2).flatMap polyEdges) ∧ AwayFromEdges (exWhole.1 ++ exWhole.2) ⟨3, 1 / 7⟩ :=
  ⟨exRaw_assumed.1, FragOk.list _ _, FragOk.list _ _, FragOk.list _ _, by decide, by unfold InRange; decide,
    decide_whole (by decide +kernel), offEdges_of_side (by unfold lineSide; decide +kernel)⟩

end IOverlay
