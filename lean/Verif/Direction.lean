/-
Start and direction of a contour: the registered edges are the same up to order and sign.
-/
import Verif.Corners
import Verif.Swap
import Verif.Props.Api

namespace IOverlay
open WindingCount
variable {C : Type}

/-! ### rotation -/

theorem cyclicTriples_rotate_one (p : Pt) (l : List Pt) :
    cyclicTriples (l ++ [p]) = (cyclicTriples (p :: l)).rotate 1 := by
  rcases l with _ | ⟨b, _ | ⟨c, l⟩⟩
  · rfl
  · rfl
  · have e1 : (b :: c :: l) ++ [p] ++ ((b :: c :: l) ++ [p]).take 2 = (b :: c :: l) ++ p :: b :: [c] := by simp
    have e2 : (p :: b :: c :: l) ++ (p :: b :: c :: l).take 2 = p :: b :: c :: (l ++ [p, b]) := by simp
    unfold cyclicTriples
    rw [e1, e2, triples_append, show triples (p :: b :: c :: (l ++ [p, b])) = (p, b, c) :: triples (b :: c :: (l ++ [p, b])) from rfl,
      List.rotate_cons_succ, List.rotate_zero]
    rfl

theorem cyclicTriples_rotate (n : Nat) : ∀ l : List Pt, (cyclicTriples l).IsRotated (cyclicTriples (l.rotate n)) := by
  induction n with
  | zero => intro l; simp; exact List.IsRotated.refl _
  | succ n ih =>
    intro l
    cases l with
    | nil => simp; exact List.IsRotated.refl _
    | cons p l =>
      rw [List.rotate_cons_succ]
      refine List.IsRotated.trans ⟨1, ?_⟩ (ih _)
      rw [cyclicTriples_rotate_one]

theorem isRotated_filter {α : Type} (P : α → Bool) {l m : List α} (h : l.IsRotated m) : (l.filter P).IsRotated (m.filter P) := by
  obtain ⟨n, rfl⟩ := h
  rw [List.rotate_eq_drop_append_take_mod, List.filter_append]
  have : l.filter P = (l.take (n % l.length)).filter P ++ (l.drop (n % l.length)).filter P := by
    rw [← List.filter_append, List.take_append_drop]
  rw [this]
  exact List.isRotated_append

theorem corners_rotate (n : Nat) (l : List Pt) : (corners l).IsRotated (corners (l.rotate n)) := by
  unfold corners
  exact (isRotated_filter _ (cyclicTriples_rotate n l)).map _

theorem NoSpikes.rotate {l : List Pt} (h : NoSpikes l) (n : Nat) : NoSpikes (l.rotate n) := by
  intro t ht
  exact h t ((cyclicTriples_rotate n l).mem_iff.2 ht)

theorem polyEdges_rotate_one (p : Pt) (l : List Pt) : (polyEdges (l ++ [p])).Perm (polyEdges (p :: l)) := by
  rcases l with _ | ⟨x, c⟩
  · exact List.Perm.refl _
  · rw [polyEdges_eq_pathSteps (path := (x :: c) ++ [p]) (p := x) rfl, polyEdges_eq_pathSteps (path := p :: x :: c) (p := p) rfl,
      pathSteps_append (a := p) (by rw [List.getLast?_append]; rfl)]
    have : pathSteps (p :: x :: c ++ [p]) = (p, x) :: pathSteps (x :: c ++ [p]) := rfl
    rw [this]
    exact List.perm_append_singleton _ _

theorem polyEdges_rotated {l m : List Pt} (h : l.IsRotated m) : (polyEdges l).Perm (polyEdges m) := by
  obtain ⟨n, rfl⟩ := h
  induction n generalizing l with
  | zero => simp
  | succ n ih =>
    cases l with
    | nil => simp
    | cons p l =>
      rw [List.rotate_cons_succ]
      exact (polyEdges_rotate_one p l).symm.trans (ih (l := l ++ [p]))

/-! ### reversal -/

/-- The triple passed backwards. -/
def flipT (t : Pt × Pt × Pt) : Pt × Pt × Pt := (t.2.2, t.2.1, t.1)

theorem triples_reverse (l : List Pt) : triples l.reverse = ((triples l).map flipT).reverse := by
  induction l with
  | nil => rfl
  | cons a l ih =>
    rcases l with _ | ⟨b, _ | ⟨c, l⟩⟩
    · rfl
    · rfl
    · have e : (a :: b :: c :: l).reverse = l.reverse ++ c :: b :: [a] := by simp
      have e' : (b :: c :: l).reverse = l.reverse ++ [c, b] := by simp
      rw [e, triples_append, ← e', ih]
      simp [triples, flipT]

theorem cyclicTriples_reverse (l : List Pt) :
    (cyclicTriples l.reverse).IsRotated ((cyclicTriples l).map flipT).reverse := by
  have hlast : l.length < 2 ∨ ∃ pre a b, l = pre ++ [a, b] := by
    rcases l with _ | ⟨x, _ | ⟨y, l⟩⟩
    · exact Or.inl (by simp)
    · exact Or.inl (by simp)
    · right
      have : ∀ (l : List Pt) (x y : Pt), ∃ pre a b, x :: y :: l = pre ++ [a, b] := by
        intro l
        induction l with
        | nil => intro x y; exact ⟨[], x, y, rfl⟩
        | cons z l ih => intro x y; obtain ⟨pre, a, b, e⟩ := ih y z; exact ⟨x :: pre, a, b, by rw [e]; rfl⟩
      exact this l x y
  rcases hlast with h | ⟨pre, a, b, rfl⟩
  · rcases l with _ | ⟨x, _ | ⟨y, l⟩⟩
    · exact List.IsRotated.refl _
    · exact List.IsRotated.refl _
    · simp only [List.length_cons] at h; omega
  · have e : cyclicTriples (pre ++ [a, b]).reverse = ((cyclicTriples (a :: b :: pre)).map flipT).reverse := by
      unfold cyclicTriples
      rw [← triples_reverse]
      congr 1
      simp
    rw [e]
    refine List.IsRotated.reverse (List.IsRotated.map ?_ _)
    have e2 : pre ++ [a, b] = (a :: b :: pre).rotate 2 := by simp [List.rotate_cons_succ]
    rw [e2]
    exact cyclicTriples_rotate 2 _

theorem corners_reverse (l : List Pt) : (corners l.reverse).IsRotated (corners l).reverse := by
  have h := ((isRotated_filter isCorner (cyclicTriples_reverse l)).map fun t => t.2.1)
  have e : ((((cyclicTriples l).map flipT).reverse.filter isCorner).map fun t => t.2.1) = (corners l).reverse := by
    unfold corners
    rw [List.filter_reverse, List.map_reverse, List.filter_map, List.map_map]
    have : isCorner ∘ flipT = isCorner := by
      funext t
      have := isLine_swap13 t.2.2 t.2.1 t.1
      unfold isLine at this
      rw [Bool.eq_iff_iff, beq_iff_eq, beq_iff_eq] at this
      unfold isCorner flipT
      simp only [Function.comp, decide_eq_decide]
      exact not_congr this
    rw [this]
    rfl
  rw [e] at h
  exact h

theorem GoesOn.flip {t : Pt × Pt × Pt} (h : GoesOn t) : GoesOn (flipT t) := by
  obtain ⟨a, b, c⟩ := t
  rcases h with h | h
  · left
    intro z
    apply h
    simp only [flipT, area2] at z ⊢
    linear_combination -z
  · right
    simp only [flipT, dot] at h ⊢
    nlinarith

theorem NoSpikes.reverse {l : List Pt} (h : NoSpikes l) : NoSpikes l.reverse := by
  intro t ht
  have := (cyclicTriples_reverse l).mem_iff.1 ht
  rw [List.mem_reverse, List.mem_map] at this
  obtain ⟨u, hu, rfl⟩ := this
  exact (h u hu).flip

theorem polyEdges_reverse (l : List Pt) : (polyEdges l.reverse).Perm ((polyEdges l).map Prod.swap) := by
  cases l with
  | nil => exact List.Perm.refl _
  | cons p l =>
    rw [List.reverse_cons]
    refine (polyEdges_rotate_one p l.reverse).trans ?_
    rw [polyEdges_eq_pathSteps (path := p :: l.reverse) (p := p) rfl, polyEdges_eq_pathSteps (path := p :: l) (p := p) rfl]
    have e : p :: l.reverse ++ [p] = (p :: l ++ [p]).reverse := by simp
    rw [e]
    exact pathSteps_reverse _

/-! ### registered edges -/

theorem appendContour_rotated [WindingCount C] (st : ShapeType) {c c' : List Pt} (h : NoSpikes c) (h' : NoSpikes c')
    (hr : (corners c).IsRotated (corners c')) : (appendContour st c : List (Seg C)).Perm (appendContour st c') := by
  unfold appendContour
  rw [appendPath_corners _ _ _ h, appendPath_corners _ _ _ h']
  exact (polyEdges_rotated hr).map _

theorem withAB_back {u v : Pt} (h : u ≠ v) (c : CountBool) :
    withAB v u c (invert c) = (withAB u v c (invert c)).mapC invert := by
  have hinv : invert (invert c) = c := by
    simp only [invert, neg_neg]
  unfold withAB Seg.mapC
  rcases Pt.lt_tri u v with h1 | h1 | h1
  · rw [if_neg (Pt.lt_asymm h1), if_pos h1]
  · exact absurd h1 h
  · rw [if_pos h1, if_neg (Pt.lt_asymm h1)]
    simp only [hinv]

theorem appendContour_reverse (st : ShapeType) {c : List Pt} (h : NoSpikes c) :
    (appendContour st c.reverse : List (Seg CountBool)).Perm ((appendContour st c).map (Seg.mapC invert)) := by
  have hlt := appendPath_lt (C := CountBool) (ofShape st).1 (ofShape st).2 c
  unfold appendContour
  rw [appendPath_corners _ _ _ h.reverse, appendPath_corners _ _ _ h]
  rw [appendPath_corners _ _ _ h] at hlt
  refine (((polyEdges_rotated (corners_reverse c)).trans (polyEdges_reverse _)).map _).trans ?_
  rw [List.map_map, List.map_map]
  refine List.Perm.of_eq (List.map_congr_left ?_)
  intro e he
  have hl := hlt _ (List.mem_map_of_mem he)
  have hne : e.1 ≠ e.2 := by
    intro hc
    rw [hc] at hl
    unfold withAB at hl
    rw [if_neg (Pt.lt_irrefl _)] at hl
    exact Pt.lt_irrefl _ hl
  have hst : (ofShape st : CountBool × CountBool).2 = invert (ofShape st : CountBool × CountBool).1 := by cases st <;> rfl
  simp only [Function.comp, Prod.fst_swap, Prod.snd_swap]
  rw [hst]
  exact withAB_back hne _

theorem overlaySegments_reverse {subj clip : List (List Pt)} (hs : ∀ c ∈ subj, NoSpikes c) (hc : ∀ c ∈ clip, NoSpikes c) :
    (overlaySegments (subj.map List.reverse) (clip.map List.reverse) : List (Seg CountBool)).Perm
      ((overlaySegments subj clip).map (Seg.mapC invert)) := by
  have key : ∀ (st : ShapeType) (l : List (List Pt)), (∀ c ∈ l, NoSpikes c) →
      ((l.map List.reverse).flatMap (appendContour st) : List (Seg CountBool)).Perm
        ((l.flatMap (appendContour st)).map (Seg.mapC invert)) := by
    intro st l
    induction l with
    | nil => intro _; exact List.Perm.refl _
    | cons c l ih =>
      intro h
      rw [List.map_cons, List.flatMap_cons, List.flatMap_cons, List.map_append]
      exact (appendContour_reverse st (h c (by simp))).append (ih fun d hd => h d (List.mem_cons_of_mem _ hd))
  unfold overlaySegments
  rw [List.map_append]
  exact (key _ _ hs).append (key _ _ hc)

/-! ### the sign of the counts -/

theorem invert_hom : CountHom (invert : CountBool → CountBool) where
  nonempty c := by
    simp only [isNotEmpty, invert]
    rw [Bool.eq_iff_iff]
    simp
  add c d := by
    simp only [add, invert, CountBool.mk.injEq]
    constructor <;> ring
  invert c := rfl

/-- `Positive` and `Negative` exchanged. -/
def FillRule.opposite : FillRule → FillRule
  | .evenOdd => .evenOdd
  | .nonZero => .nonZero
  | .positive => .negative
  | .negative => .positive

theorem inside_neg (rule : FillRule) (w : Int) : rule.inside (-w) = rule.opposite.inside w := by
  cases rule
  · have : (-w) % 2 = w % 2 := by omega
    simp [FillRule.inside, FillRule.opposite, this]
  · simp only [FillRule.inside, FillRule.opposite]
    rw [Bool.eq_iff_iff]; simp
  · simp [FillRule.inside, FillRule.opposite]
  · simp [FillRule.inside, FillRule.opposite]

theorem sum_map_neg {α : Type} {f g : α → Int} (l : List α) (h : ∀ t, f t = - g t) : (l.map f).sum = - (l.map g).sum := by
  induction l with
  | nil => rfl
  | cons t l ih => rw [List.map_cons, List.map_cons, List.sum_cons, List.sum_cons, ih, h t]; ring

theorem fillOf_invert (rule : FillRule) (segs : List (Seg CountBool)) (s : Seg CountBool) :
    fillOf rule (segs.map (Seg.mapC invert)) (s.mapC invert) = fillOf rule.opposite segs s := by
  have hb : botW CountBool.subj (segs.map (Seg.mapC invert)) (s.mapC invert) = - botW CountBool.subj segs s ∧
      botW CountBool.clip (segs.map (Seg.mapC invert)) (s.mapC invert) = - botW CountBool.clip segs s := by
    unfold botW wsum
    constructor <;>
    · rw [List.map_map, sum_map_neg]
      intro t
      simp only [Function.comp, Seg.mapC, invert]
      rw [neg_mul]
      rfl
  unfold fillOf
  rw [hb.1, hb.2]
  have e1 : (s.mapC invert).c.subj = - s.c.subj := rfl
  have e2 : (s.mapC invert).c.clip = - s.c.clip := rfl
  rw [e1, e2, ← neg_add, ← neg_add, inside_neg, inside_neg, inside_neg, inside_neg]

theorem planar_mapC {f : CountBool → CountBool} {segs : List (Seg CountBool)} (hp : Planar segs) :
    Planar (segs.map (Seg.mapC f)) := by
  refine ⟨?_, ?_, ?_⟩
  · intro t ht
    obtain ⟨s, hs, rfl⟩ := List.mem_map.1 ht
    exact hp.lt s hs
  · rw [List.pairwise_map]
    exact hp.sorted
  · unfold Noded
    rw [List.pairwise_map]
    exact hp.noded

theorem closed_invert {segs : List (Seg CountBool)} (hs : Closed CountBool.subj segs) (hc : Closed CountBool.clip segs) :
    Closed CountBool.subj (segs.map (Seg.mapC invert)) ∧ Closed CountBool.clip (segs.map (Seg.mapC invert)) := by
  have key : ∀ φ : CountBool → Int, (∀ c, φ (invert c) = - φ c) → Closed φ segs → Closed φ (segs.map (Seg.mapC invert)) := by
    intro φ hφ h f
    rw [← neg_eq_zero, ← h f]
    unfold segSum
    rw [List.map_map, neg_eq_iff_eq_neg]
    apply sum_map_neg
    intro t
    simp only [Function.comp, Seg.mapC, hφ]
    ring
  exact ⟨key _ (fun _ => rfl) hs, key _ (fun _ => rfl) hc⟩

theorem splitSegments_invert (st : Strategy) (sr : SnapRadius) {tree : TreeOracle CountBool}
    (ht : tree.Blind invert) (fuel : Nat) (l : List (Seg CountBool)) :
    splitSegments st sr tree fuel (l.map (Seg.mapC invert)) =
      (splitSegments st sr tree fuel l).map (List.map (Seg.mapC invert)) := by
  unfold splitSegments
  dsimp only
  rw [sortSegs_mapC, mergeIfNeeded_mapC invert_hom, List.length_map]
  split
  · exact splitLoop_mapC invert_hom st ht _ _ _ _
  · split
    · unfold fragSplit
      rw [Grid.new_mapC]
      split
      · exact splitLoop_mapC invert_hom st ht _ _ _ _
      · exact fragLoop_mapC invert_hom _ _ _ _
    · exact splitLoop_mapC invert_hom st ht _ _ _ _

theorem buildBoolean_invert {rule : FillRule} {st : Strategy} {sr : SnapRadius} {inc : Fill → Bool}
    {tree : TreeOracle CountBool} (ht : tree.Ok) (hb : tree.Blind invert) {sc : ScanOracle CountBool}
    (hsc : sc.Ok) (fuel : Nat) (subj clip : List (List Pt))
    (hf : FragOk st sr (overlaySegments subj clip : List (Seg CountBool))) :
    buildBoolean inc rule.opposite st sr tree sc fuel ((overlaySegments subj clip).map (Seg.mapC invert)) =
      buildBoolean inc rule st sr tree sc fuel (overlaySegments subj clip) := by
  unfold buildBoolean
  rw [List.isEmpty_map]
  split
  · rfl
  · rw [splitSegments_invert st sr hb, Option.map_map]
    rcases hr : splitSegments st sr tree fuel (overlaySegments subj clip) with _ | segs
    · rfl
    · obtain ⟨hp, b1, b2, -⟩ := overlay_planar ht hf hr
      obtain ⟨b1', b2'⟩ := closed_invert b1 b2
      simp only [Option.map_some, Function.comp]
      congr 1
      rw [List.isEmpty_map]
      split
      · rfl
      · rw [fillSweep_map _ (planar_mapC hp) b1' b2' sc hsc, fillSweep_map rule hp b1 b2 sc hsc, buildLinks_map, buildLinks_map,
          List.filter_map, List.map_map]
        have hopp : rule.opposite.opposite = rule := by cases rule <;> rfl
        have : (fun s => inc (fillOf rule.opposite (segs.map (Seg.mapC invert)) s)) ∘
            Seg.mapC invert = fun s => inc (fillOf rule segs s) := by
          funext s
          simp only [Function.comp]
          rw [fillOf_invert, hopp]
        rw [this]
        apply List.map_congr_left
        intro s _
        simp only [Function.comp]
        rw [fillOf_invert, hopp]; rfl

end IOverlay
