/- Lemmas about contour ingestion. -/
import Verif.Wind

namespace IOverlay
variable {C : Type}

/-- Weight of the directed edge `p → q` as a list sum: open path. -/
noncomputable def pathWind (q : QPt) : List Pt → Int
  | [] => 0
  | [_] => 0
  | u :: v :: rest => edgeWind u v q + pathWind q (v :: rest)

theorem withAB_wind (φ : C → Int) (k : Int) {d i : C} (hd : φ d = k) (hi : φ i = -k)
    (u v : Pt) (q : QPt) :
    φ (withAB u v d i).c * edgeWind (withAB u v d i).a (withAB u v d i).b q
      = k * edgeWind u v q := by
  unfold withAB
  split
  · simp [hd]
  · simp only [hi, edgeWind_swap u v q]; ring

theorem skipLine_spec (q : QPt) (p0 p1 : Pt) (rest : List Pt) :
    ∀ r, skipLine p0 p1 rest = r →
    pathWind q (p0 :: p1 :: rest)
      = edgeWind p0 r.1 q + pathWind q (r.1 :: r.2.1 :: r.2.2) ∧
    (r.2.1 :: r.2.2).getLast (by simp) = (p1 :: rest).getLast (by simp) := by
  induction rest generalizing p1 with
  | nil =>
    rintro r rfl
    simp [skipLine, edgeWind_self]
  | cons p rest ih =>
    rintro r rfl
    rw [skipLine]
    by_cases hl : isLine p0 p1 p = true
    · have ha := isLine_iff.1 hl
      simp only [hl, Bool.not_true, Bool.false_eq_true, if_false]
      have := ih p _ rfl
      refine ⟨?_, ?_⟩
      · rw [← this.1]; simp only [pathWind]; rw [← edgeWind_add ha]; ring
      · rw [this.2]; simp
    · simp only [Bool.not_eq_true] at hl
      simp only [hl, Bool.not_false, if_true]
      simp [pathWind]

theorem mainLoop_spec (φ : C → Int) (k : Int) {d i : C} (hd : φ d = k) (hi : φ i = -k)
    (q : QPt) (p0 p1 : Pt) (rest : List Pt) :
    ∀ r, mainLoop d i p0 p1 rest = r →
    segsWind φ r.1 q + k * edgeWind r.2.1 r.2.2 q = k * pathWind q (p0 :: p1 :: rest) ∧
    r.2.2 = (p1 :: rest).getLast (by simp) := by
  induction rest generalizing p0 p1 with
  | nil => rintro r rfl; simp [mainLoop, pathWind]
  | cons p rest ih =>
    rintro r rfl
    rw [mainLoop]
    by_cases hl : isLine p0 p1 p = true
    · have ha := isLine_iff.1 hl
      simp only [hl, if_true]
      have := ih p0 p _ rfl
      refine ⟨?_, ?_⟩
      · rw [this.1]; simp only [pathWind]; rw [← edgeWind_add ha]; ring
      · rw [this.2]; simp
    · simp only [hl]
      have := ih p1 p _ rfl
      refine ⟨?_, ?_⟩
      · simp only [Bool.false_eq_true, if_false, segsWind_cons]
        rw [withAB_wind φ k hd hi, pathWind]
        linear_combination this.1
      · simp only [Bool.false_eq_true, if_false]; rw [this.2]; simp

theorem line_trans {p0 p1 q0 q1 : Pt} (h1 : area2 p0 p1 q0 = 0) (h2 : area2 q0 q1 p1 = 0)
    (hne : p1 ≠ q0) : area2 p0 q0 q1 = 0 := by
  unfold area2 at *
  rw [ne_eq, Pt.ext_iff'] at hne
  by_cases hx : p1.x = q0.x
  · have hy : p1.y - q0.y ≠ 0 := by omega
    apply mul_left_cancel₀ hy
    rw [hx] at h1 h2
    linear_combination (q0.y - q1.y) * h1 - (q0.y - p0.y) * h2
  · have hx' : p1.x - q0.x ≠ 0 := by omega
    apply mul_left_cancel₀ hx'
    linear_combination (q0.x - q1.x) * h1 - (q0.x - p0.x) * h2

theorem closePath_wind (φ : C → Int) (k : Int) {d i : C} (hd : φ d = k) (hi : φ i = -k)
    (q : QPt) {q0 q1 p0 p1 : Pt} (hne : p1 ≠ q0) :
    segsWind φ (closePath d i q0 q1 p0 p1) q
      = k * (edgeWind p0 p1 q + edgeWind p1 q0 q + edgeWind q0 q1 q) := by
  have hw := fun u v => withAB_wind (d := d) (i := i) φ k hd hi u v q
  unfold closePath
  cases h1 : isLine p0 p1 q0 <;> cases h2 : isLine q0 q1 p1
  · simp [hw]; ring
  · have a2 := isLine_iff.1 h2
    have a2' : area2 p1 q0 q1 = 0 := by rw [← area2_rot]; exact a2
    simp only [segsWind_append, segsWind_cons, hw, segsWind_nil]
    rw [show edgeWind p0 p1 q + edgeWind p1 q0 q + edgeWind q0 q1 q
      = edgeWind p0 p1 q + edgeWind p1 q1 q by rw [← edgeWind_add a2']; ring]
    split
    · simp [hw]; ring
    · next h => simp only [ne_eq, not_not] at h; subst h; simp [edgeWind_self]
  · have a1 := isLine_iff.1 h1
    simp only [segsWind_append, segsWind_cons, hw, segsWind_nil]
    rw [edgeWind_add a1]
    split
    · simp [hw]; ring
    · next h => simp only [ne_eq, not_not] at h; subst h; simp [edgeWind_self]
  · have a1 := isLine_iff.1 h1
    have a2 := isLine_iff.1 h2
    have a3 := line_trans a1 a2 hne
    rw [edgeWind_add a1, edgeWind_add a3]
    dsimp only
    split
    · simp [hw]
    · next h => simp only [ne_eq, not_not] at h; subst h; simp [edgeWind_self]

theorem pathWind_append_last (q : QPt) (l : List Pt) (hl : l ≠ []) (p : Pt) :
    pathWind q (l ++ [p]) = pathWind q l + edgeWind (l.getLast hl) p q := by
  induction l with
  | nil => exact absurd rfl hl
  | cons u l ih =>
    cases l with
    | nil => simp [pathWind]
    | cons v l =>
      have := ih (by simp)
      simp only [List.cons_append, pathWind] at *
      rw [this, List.getLast_cons (a := u) (by simp)]; ring

theorem zipWind_eq (q : QPt) (u : Pt) (l : List Pt) (p : Pt) :
    (((u :: l).zip (l ++ [p])).map fun e => edgeWind e.1 e.2 q).sum = pathWind q (u :: l ++ [p]) := by
  induction l generalizing u with
  | nil => simp [pathWind]
  | cons v l ih =>
    have := ih v
    simp only [List.cons_append, List.zip_cons_cons, List.map_cons, List.sum_cons, pathWind] at *
    rw [this]

theorem polyWind_eq_path (p : Pt) (l : List Pt) (q : QPt) :
    polyWind (p :: l) q = pathWind q (p :: l ++ [p]) := by
  unfold polyWind polyEdges; exact zipWind_eq q p l p

theorem appendPath_wind (φ : C → Int) (k : Int) {d i : C} (hd : φ d = k) (hi : φ i = -k)
    (pts : List Pt) (hc : 2 ≤ pts.length → pts.head? ≠ pts.getLast?) (q : QPt) :
    segsWind φ (appendPath d i pts) q = k * polyWind pts q := by
  match pts with
  | [] => simp [appendPath, polyWind, polyEdges]
  | [p] => simp [appendPath, polyWind, polyEdges, edgeWind_self]
  | q0 :: p1 :: rest =>
    have hs := skipLine_spec q q0 p1 rest _ rfl
    have hm := mainLoop_spec φ k hd hi q (skipLine q0 p1 rest).1 (skipLine q0 p1 rest).2.1
      (skipLine q0 p1 rest).2.2 _ rfl
    have hlast : (mainLoop d i (skipLine q0 p1 rest).1 (skipLine q0 p1 rest).2.1
      (skipLine q0 p1 rest).2.2).2.2 = (p1 :: rest).getLast (by simp) := by rw [hm.2, hs.2]
    have hne : (mainLoop d i (skipLine q0 p1 rest).1 (skipLine q0 p1 rest).2.1
      (skipLine q0 p1 rest).2.2).2.2 ≠ q0 := by
      rw [hlast]
      have := hc (by simp)
      intro h
      apply this
      rw [List.getLast?_eq_getLast_of_ne_nil (by simp), List.getLast_cons (by simp), h]
      simp
    simp only [appendPath, segsWind_append]
    rw [closePath_wind φ k hd hi q hne, polyWind_eq_path, pathWind_append_last q _ (by simp),
      List.getLast_cons (by simp), ← hlast, hs.1]
    linear_combination hm.1

end IOverlay

namespace IOverlay
variable {C : Type}

/-! ### Non-degeneracy, degenerate contours, closedness -/

theorem withAB_lt {u v : Pt} (h : u ≠ v) (d i : C) : (withAB u v d i).a < (withAB u v d i).b := by
  unfold withAB
  split
  · assumption
  · next h' => exact Pt.lt_of_not_lt_ne h' h

theorem mainLoop_lt (d i : C) (p0 p1 : Pt) (rest : List Pt) :
    ∀ s ∈ (mainLoop d i p0 p1 rest).1, s.a < s.b := by
  induction rest generalizing p0 p1 with
  | nil => simp [mainLoop]
  | cons p rest ih =>
    rw [mainLoop]
    split
    · exact ih p0 p
    · next h =>
      intro s hs
      rcases List.mem_cons.1 hs with rfl | hs
      · apply withAB_lt
        rintro rfl
        exact h (isLine_iff.2 (area2_self_mid _ _))
      · exact ih p1 p s hs

theorem closePath_lt (d i : C) (q0 q1 p0 p1 : Pt) :
    ∀ s ∈ closePath d i q0 q1 p0 p1, s.a < s.b := by
  have e1 : isLine p0 p1 q0 = false → p0 ≠ p1 := by
    rintro h rfl; rw [isLine_iff.2 (area2_self_mid _ _)] at h; cases h
  have e2 : isLine p0 p1 q0 = false → p1 ≠ q0 := by
    rintro h rfl; rw [isLine_iff.2 (area2_self_right _ _)] at h; cases h
  have e3 : isLine q0 q1 p1 = false → q0 ≠ q1 := by
    rintro h rfl; rw [isLine_iff.2 (area2_self_mid _ _)] at h; cases h
  unfold closePath
  cases h1 : isLine p0 p1 q0 <;> cases h2 : isLine q0 q1 p1 <;> intro s hs
  · simp only [List.mem_cons, List.not_mem_nil, or_false] at hs
    rcases hs with rfl | rfl | rfl
    · exact withAB_lt (e1 h1) _ _
    · exact withAB_lt (e2 h1) _ _
    · exact withAB_lt (e3 h2) _ _
  · simp only [List.mem_append, List.mem_cons, List.not_mem_nil, or_false] at hs
    rcases hs with rfl | hs
    · exact withAB_lt (e1 h1) _ _
    · split at hs
      · next h => simp only [List.mem_cons, List.not_mem_nil, or_false] at hs; subst hs; exact withAB_lt h _ _
      · simp at hs
  · simp only [List.mem_append, List.mem_cons, List.not_mem_nil, or_false] at hs
    rcases hs with hs | rfl
    · split at hs
      · next h => simp only [List.mem_cons, List.not_mem_nil, or_false] at hs; subst hs; exact withAB_lt h _ _
      · simp at hs
    · exact withAB_lt (e3 h2) _ _
  · dsimp only at hs
    split at hs
    · next h => simp only [List.mem_cons, List.not_mem_nil, or_false] at hs; subst hs; exact withAB_lt h _ _
    · simp at hs

theorem appendPath_lt (d i : C) (pts : List Pt) : ∀ s ∈ appendPath d i pts, s.a < s.b := by
  match pts with
  | [] => simp [appendPath]
  | [p] => simp [appendPath]
  | q0 :: p1 :: rest =>
    intro s hs
    simp only [appendPath, List.mem_append] at hs
    rcases hs with hs | hs
    · exact mainLoop_lt _ _ _ _ _ s hs
    · exact closePath_lt _ _ _ _ _ _ s hs

theorem skipLine_of_line (p0 p1 : Pt) (rest : List Pt)
    (h : ∀ u ∈ p1 :: rest, ∀ v ∈ p1 :: rest, area2 p0 u v = 0) :
    ∃ e, skipLine p0 p1 rest = (p0, e, []) := by
  induction rest generalizing p1 with
  | nil => exact ⟨p1, rfl⟩
  | cons p rest ih =>
    rw [skipLine, isLine_iff.2 (h p1 (by simp) p (by simp))]
    simp only [Bool.not_true, Bool.false_eq_true, if_false]
    exact ih p fun u hu v hv => h u (List.mem_cons_of_mem _ hu) v (List.mem_cons_of_mem _ hv)

theorem area2_of_line {a b c : Int} (hab : a ≠ 0 ∨ b ≠ 0) {u v w : Pt}
    (hu : a * u.x + b * u.y = c) (hv : a * v.x + b * v.y = c) (hw : a * w.x + b * w.y = c) :
    area2 u v w = 0 := by
  unfold area2
  rcases hab with h | h
  · apply mul_left_cancel₀ h
    linear_combination (v.y - w.y) * hv - (v.y - w.y) * hu - (v.y - u.y) * hv + (v.y - u.y) * hw
  · apply mul_left_cancel₀ h
    linear_combination (v.x - u.x) * hv - (v.x - u.x) * hw - (v.x - w.x) * hv + (v.x - w.x) * hu

theorem appendPath_of_line (d i : C) (pts : List Pt) {a b c : Int} (hab : a ≠ 0 ∨ b ≠ 0)
    (h : ∀ p ∈ pts, a * p.x + b * p.y = c) : appendPath d i pts = [] := by
  match pts, h with
  | [], _ => rfl
  | [p], _ => rfl
  | q0 :: p1 :: rest, h =>
    obtain ⟨e, he⟩ := skipLine_of_line q0 p1 rest (by
      intro u hu v hv
      exact area2_of_line hab (h q0 (by simp)) (h u (List.mem_cons_of_mem _ hu))
        (h v (List.mem_cons_of_mem _ hv)))
    simp only [appendPath, he, mainLoop, closePath]
    rw [isLine_iff.2 (area2_self_left _ _), isLine_iff.2 (area2_self_mid _ _)]
    simp

/-- Weighted sum over segments of a function of the (ordered) end points. -/
def segSum (φ : C → Int) (g : Pt → Pt → Int) (l : List (Seg C)) : Int :=
  (l.map fun s => φ s.c * g s.a s.b).sum

@[simp] theorem segSum_nil (φ : C → Int) (g) : segSum φ g [] = 0 := rfl
@[simp] theorem segSum_cons (φ : C → Int) (g) (s : Seg C) (l) :
    segSum φ g (s :: l) = φ s.c * g s.a s.b + segSum φ g l := by simp [segSum]
@[simp] theorem segSum_append (φ : C → Int) (g) (l l' : List (Seg C)) :
    segSum φ g (l ++ l') = segSum φ g l + segSum φ g l' := by simp [segSum]

theorem segSum_perm (φ : C → Int) (g) {l l' : List (Seg C)} (h : l.Perm l') :
    segSum φ g l = segSum φ g l' := (h.map _).sum_eq

theorem segsWind_eq_segSum (φ : C → Int) (l : List (Seg C)) (q : QPt) :
    segsWind φ l q = segSum φ (fun a b => edgeWind a b q) l := rfl

/-- The `φ`-flow through the segments is closed: for every potential `f`, the sum of
`count * (f(start) - f(end))` vanishes. With `f` the indicator of a point this says that the
counts leaving the point equal those entering it. -/
def Closed (φ : C → Int) (l : List (Seg C)) : Prop :=
  ∀ f : Pt → Int, segSum φ (fun a b => f a - f b) l = 0

theorem withAB_flow (φ : C → Int) (k : Int) {d i : C} (hd : φ d = k) (hi : φ i = -k)
    (u v : Pt) (f : Pt → Int) :
    φ (withAB u v d i).c * (f (withAB u v d i).a - f (withAB u v d i).b) = k * (f u - f v) := by
  unfold withAB
  split
  · simp [hd]
  · simp only [hi]; ring

theorem mainLoop_flow (φ : C → Int) (k : Int) {d i : C} (hd : φ d = k) (hi : φ i = -k)
    (f : Pt → Int) (p0 p1 : Pt) (rest : List Pt) :
    segSum φ (fun a b => f a - f b) (mainLoop d i p0 p1 rest).1
      = k * (f p0 - f (mainLoop d i p0 p1 rest).2.1) := by
  induction rest generalizing p0 p1 with
  | nil => simp [mainLoop]
  | cons p rest ih =>
    rw [mainLoop]
    split
    · exact ih p0 p
    · simp only [segSum_cons]
      rw [withAB_flow φ k hd hi, ih]; ring

theorem closePath_flow (φ : C → Int) (k : Int) {d i : C} (hd : φ d = k) (hi : φ i = -k)
    (f : Pt → Int) (q0 q1 p0 p1 : Pt) :
    segSum φ (fun a b => f a - f b) (closePath d i q0 q1 p0 p1) = k * (f p0 - f q1) := by
  have hw := fun u v => withAB_flow (d := d) (i := i) φ k hd hi u v f
  unfold closePath
  cases isLine p0 p1 q0 <;> cases isLine q0 q1 p1 <;> dsimp only
  · simp only [segSum_cons, hw, segSum_nil]; ring
  · split
    · simp only [segSum_append, segSum_cons, hw, segSum_nil]; ring
    · next h =>
      simp only [ne_eq, not_not] at h; subst h
      simp only [segSum_append, segSum_cons, hw, segSum_nil]; ring
  · split
    · simp only [segSum_append, segSum_cons, hw, segSum_nil]; ring
    · next h =>
      simp only [ne_eq, not_not] at h; subst h
      simp only [segSum_append, segSum_cons, hw, segSum_nil]; ring
  · split
    · simp only [segSum_cons, hw, segSum_nil]; ring
    · next h => simp only [ne_eq, not_not] at h; subst h; simp

theorem appendPath_closed (φ : C → Int) (k : Int) {d i : C} (hd : φ d = k) (hi : φ i = -k)
    (pts : List Pt) : Closed φ (appendPath d i pts) := by
  intro f
  match pts with
  | [] => rfl
  | [p] => rfl
  | q0 :: p1 :: rest =>
    simp only [appendPath, segSum_append]
    rw [mainLoop_flow φ k hd hi, closePath_flow φ k hd hi]; ring

theorem Closed.append {φ : C → Int} {l l' : List (Seg C)} (h : Closed φ l) (h' : Closed φ l') :
    Closed φ (l ++ l') := fun f => by simp [h f, h' f]

theorem Closed.flatMap {α : Type} {φ : C → Int} {l : List α} {g : α → List (Seg C)}
    (h : ∀ x ∈ l, Closed φ (g x)) : Closed φ (l.flatMap g) := by
  induction l with
  | nil => intro f; rfl
  | cons x l ih =>
    rw [List.flatMap_cons]
    exact (h x (by simp)).append (ih fun y hy => h y (List.mem_cons_of_mem _ hy))

end IOverlay
