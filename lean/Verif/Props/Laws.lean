/-
C71: laws of set algebra that hold for the returned lists themselves, rounding included.
-/
import Verif.Laws

namespace IOverlay
open WindingCount

/-! ### total counts of the given edges -/

theorem keySum_clip_zero (a b : Pt) (l : List (Seg CountBool)) (h : ∀ s ∈ l, s.c.clip = 0) : (keySum l a b).clip = 0 := by
  induction l with
  | nil => rfl
  | cons s l ih =>
    have ih := ih fun t ht => h t (by simp [ht])
    rw [keySum_cons]
    split
    · have := h s (by simp)
      simp only [add]; rw [this, ih]; rfl
    · exact ih

/-- The edges of subject contours count for the subject only, those of clip contours are their mirror images. -/
theorem subject_counts (cs : List (List Pt)) :
    (∀ s ∈ cs.flatMap (appendContour (C := CountBool) .subject), s.c.clip = 0) ∧
    cs.flatMap (appendContour (C := CountBool) .clip) =
      (cs.flatMap (appendContour .subject)).map (Seg.mapC (lin 0 1 1 0)) := by
  constructor
  · intro s hs
    obtain ⟨c, -, hs⟩ := List.mem_flatMap.1 hs
    have e2 := appendPath_mapC (lin 1 0 0 (-1)) ⟨1, 0⟩ ⟨-1, 0⟩ c
    have e3 : lin 1 0 0 (-1) ⟨1, 0⟩ = ⟨1, 0⟩ ∧ lin 1 0 0 (-1) ⟨-1, 0⟩ = ⟨-1, 0⟩ := by decide
    rw [e3.1, e3.2] at e2
    have : (appendContour .subject c : List (Seg CountBool)) = appendPath ⟨1, 0⟩ ⟨-1, 0⟩ c := rfl
    rw [this] at hs
    have := congrArg (fun t : Seg CountBool => t.c.clip) (fixed_of_map e2.symm s hs)
    simp only [Seg.mapC, lin] at this
    omega
  · rw [List.map_flatMap]
    congr 1
    funext c
    exact appendPath_mapC (lin 0 1 1 0) ⟨1, 0⟩ ⟨-1, 0⟩ c

/-- Total counts: subject contours count first, clip contours second. -/
theorem keySum_overlay (subj clip : List (List Pt)) (a b : Pt) :
    keySum (overlaySegments subj clip : List (Seg CountBool)) a b =
      ⟨(keySum (subj.flatMap (appendContour (C := CountBool) .subject)) a b).subj,
        (keySum (clip.flatMap (appendContour (C := CountBool) .subject)) a b).subj⟩ := by
  unfold overlaySegments
  rw [keySum_append, (subject_counts clip).2, keySum_lin]
  have h1 := keySum_clip_zero a b _ (subject_counts subj).1
  have h2 := keySum_clip_zero a b _ (subject_counts clip).1
  simp only [lin, add]
  rw [h1, h2]
  simp

theorem flatMap_empty_iff (cs : List (List Pt)) (st : ShapeType) :
    cs.flatMap (appendContour (C := CountBool) st) = [] ↔ cs.flatMap (appendContour (C := CountBool) .subject) = [] := by
  cases st
  · rfl
  · rw [(subject_counts cs).2, List.map_eq_nil_iff]

theorem overlaySegments_empty_iff (subj clip : List (List Pt)) :
    (overlaySegments subj clip : List (Seg CountBool)) = [] ↔
      subj.flatMap (appendContour (C := CountBool) .subject) = [] ∧ clip.flatMap (appendContour (C := CountBool) .subject) = [] := by
  unfold overlaySegments
  rw [List.append_eq_nil_iff, flatMap_empty_iff clip .clip]

/-- Reversing contours negates the counts of their edges. -/
theorem reversed_edges {cs : List (List Pt)} (hs : ∀ c ∈ cs, NoSpikes c) :
    ((cs.map List.reverse).flatMap (appendContour (C := CountBool) .subject)).Perm
      ((cs.flatMap (appendContour .subject)).map (Seg.mapC (lin (-1) 0 0 (-1)))) := by
  have := overlaySegments_reverse (clip := []) hs (by simp)
  unfold overlaySegments at this
  simp only [List.flatMap_nil, List.append_nil, List.map_nil] at this
  have e : (invert : CountBool → CountBool) = lin (-1) 0 0 (-1) := by
    funext c; simp [invert, lin]
  rw [e] at this
  exact this

/-! ### the laws -/

section
variable (k : Config) (x : Externals) (ht : k.tree.Ok) (hb : k.tree.SeesEdges) (hsc : k.scan.Ok) (rule : FillRule) (cw : Bool)
  (minArea : Nat)
include ht hb hsc

/-- C71: without clip contours union, difference and xor are the simplification of the subject. -/
theorem C71_no_clip (subj : List (List Pt)) (hf : FragFor k subj []) (r : OverlayRule)
    (hr : r = .union ∨ r = .difference ∨ r = .xor) :
    overlayCustom k x r rule cw minArea (overlaySegments subj []) =
      overlayCustom k x .subject rule cw minArea (overlaySegments subj []) := by
  refine overlay_lin (α := 1) (β := 0) (γ := 0) (δ := 1) (by decide) k x ht hb hsc hf (fun a b => by simp [lin])
    (overlaySegments_nonempty _ _) Iff.rfl .subject r rule rule ?_ cw minArea
  intro s c hc
  obtain rfl := hc rfl
  have : rule.inside 0 = false := by cases rule <;> rfl
  simp only [ruleAt, linP, one_mul, zero_mul, add_zero, zero_add]
  rw [this]
  rcases hr with rfl | rfl | rfl <;> cases rule.inside s <;> rfl

/-- C71: union and intersection of a shape with itself are its simplification. -/
theorem C71_same_twice (subj : List (List Pt)) (hf : FragFor k subj []) (r : OverlayRule)
    (hr : r = .union ∨ r = .intersect ∨ r = .subject ∨ r = .clip) :
    overlayCustom k x r rule cw minArea (overlaySegments subj subj) =
      overlayCustom k x .subject rule cw minArea (overlaySegments subj []) := by
  refine overlay_lin (α := 1) (β := 0) (γ := 1) (δ := 1) (by decide) k x ht hb hsc hf ?_
    (overlaySegments_nonempty _ _) ?_ .subject r rule rule ?_ cw minArea
  · intro a b
    rw [keySum_overlay, keySum_overlay]
    simp [lin, zero]
  · rw [overlaySegments_empty_iff, overlaySegments_empty_iff]
    simp
  · intro s c hc
    obtain rfl := hc rfl
    simp only [ruleAt, linP, one_mul, zero_mul, add_zero]
    rcases hr with rfl | rfl | rfl | rfl <;> cases rule.inside s <;> rfl

/-- C71: what is empty is returned as the empty list: intersection, clip and inverse difference without clip contours;
difference, inverse difference and xor of a shape with itself. -/
theorem C71_nothing (subj : List (List Pt)) (hf : FragFor k subj []) (shapes : List (List (List Pt)))
    (h : overlayCustom k x .subject rule cw minArea (overlaySegments subj []) = some shapes) :
    (∀ r : OverlayRule, r = .intersect ∨ r = .clip ∨ r = .inverseDifference →
      overlayCustom k x r rule cw minArea (overlaySegments subj []) = some []) ∧
    ∀ r : OverlayRule, r = .difference ∨ r = .inverseDifference ∨ r = .xor →
      overlayCustom k x r rule cw minArea (overlaySegments subj subj) = some [] := by
  have h0 : rule.inside 0 = false := by cases rule <;> rfl
  have hi : overlayCustom k x .intersect rule cw minArea (overlaySegments subj []) = some [] := by
    rw [overlay_resultLinks k x hsc _ _ _ _ (noded_edgesOk ht hf)] at h ⊢
    obtain ⟨segs, hs, -⟩ := Option.bind_eq_some_iff.1 h
    have hz := noded_clip_zero k hb subj [] rfl segs hs
    have hbot : ∀ s, (botP segs s).2 = 0 := by
      intro s
      unfold botP botW wsum
      apply List.sum_eq_zero
      intro n hn
      obtain ⟨t, ht, rfl⟩ := List.mem_map.1 hn
      rw [hz t ht, zero_mul]
    have : resultLinks rule .intersect segs = [] := by
      unfold resultLinks
      rw [List.map_eq_nil_iff, List.filter_eq_nil_iff]
      intro s hs'
      have e : (botP segs s + cpair s).2 = 0 := by
        change (botP segs s).2 + s.c.clip = 0
        rw [hz s hs', hbot s]; rfl
      unfold keptB ruleAt
      rw [hbot s, e, h0]
      simp [OverlayRule.op]
    rw [hs, Option.bind_some, this]
    rfl
  constructor
  · intro r hr
    rw [← hi]
    refine overlay_lin (α := 1) (β := 0) (γ := 0) (δ := 1) (by decide) k x ht hb hsc hf (fun a b => by simp [lin])
      (overlaySegments_nonempty _ _) Iff.rfl .intersect r rule rule ?_ cw minArea
    intro s c hc
    obtain rfl := hc rfl
    simp only [ruleAt, linP, one_mul, zero_mul, add_zero, zero_add]
    rw [h0]
    rcases hr with rfl | rfl | rfl <;> cases rule.inside s <;> rfl
  · intro r hr
    rw [← hi]
    refine overlay_lin (α := 1) (β := 0) (γ := 1) (δ := 1) (by decide) k x ht hb hsc hf ?_
      (overlaySegments_nonempty _ _) ?_ .intersect r rule rule ?_ cw minArea
    · intro a b
      rw [keySum_overlay, keySum_overlay]
      simp [lin, zero]
    · rw [overlaySegments_empty_iff, overlaySegments_empty_iff]
      simp
    · intro s c hc
      obtain rfl := hc rfl
      simp only [ruleAt, linP, one_mul, zero_mul, add_zero, h0]
      rcases hr with rfl | rfl | rfl <;> cases rule.inside s <;> rfl

/-- C71: adding every subject contour `m` times and every clip contour `n` times changes nothing (`EvenOdd`: odd `m`
and `n`). -/
theorem C71_repeated (subj clip : List (List Pt)) (hf : FragFor k subj clip) (m n : Nat) (hm : 0 < m) (hn : 0 < n)
    (hodd : rule = .evenOdd → m % 2 = 1 ∧ n % 2 = 1) (r : OverlayRule) :
    overlayCustom k x r rule cw minArea
        (overlaySegments (List.replicate m subj).flatten (List.replicate n clip).flatten) =
      overlayCustom k x r rule cw minArea (overlaySegments subj clip) := by
  have hrep : ∀ (cs : List (List Pt)) (a b : Pt) (m : Nat),
      (keySum ((List.replicate m cs).flatten.flatMap (appendContour (C := CountBool) .subject)) a b).subj =
        m * (keySum (cs.flatMap (appendContour (C := CountBool) .subject)) a b).subj := by
    intro cs a b m
    induction m with
    | zero => simp [zero]
    | succ m ih =>
      rw [List.replicate_succ, List.flatten_cons, List.flatMap_append, keySum_append]
      simp only [add]
      rw [ih]; push_cast; ring
  have hnil : ∀ (cs : List (List Pt)) (m : Nat), 0 < m →
      ((List.replicate m cs).flatten.flatMap (appendContour (C := CountBool) .subject) = [] ↔
        cs.flatMap (appendContour (C := CountBool) .subject) = []) := by
    intro cs m h
    simp only [List.flatMap_eq_nil_iff, List.mem_flatten, List.mem_replicate]
    constructor
    · intro h1 c hc
      exact h1 c ⟨cs, ⟨by omega, rfl⟩, hc⟩
    · rintro h1 c ⟨_, ⟨-, rfl⟩, hc⟩
      exact h1 c hc
  have hin : ∀ (m : Nat) (s : Int), 0 < m → (rule = .evenOdd → m % 2 = 1) → rule.inside (m * s) = rule.inside s := by
    intro m s h h'
    have hm : (0 : Int) < m := by exact_mod_cast h
    rw [Bool.eq_iff_iff]
    cases rule
    · have := h' rfl
      simp only [FillRule.inside]
      have e : ((m : Int) * s) % 2 = s % 2 := by
        rw [Int.mul_emod, show (m : Int) % 2 = 1 by omega, one_mul, Int.emod_emod_of_dvd _ (dvd_refl 2)]
      rw [e]
    · simp only [FillRule.inside]
      simp only [ne_eq, bne_iff_ne, decide_eq_true_eq, mul_eq_zero]
      constructor
      · exact fun h1 h2 => h1 (Or.inr h2)
      · rintro h1 (h2 | h2)
        · omega
        · exact h1 h2
    · simp only [FillRule.inside, decide_eq_true_eq]
      constructor <;> intro h1 <;> nlinarith
    · simp only [FillRule.inside, decide_eq_true_eq]
      constructor <;> intro h1 <;> nlinarith
  refine overlay_lin (α := m) (β := 0) (γ := 0) (δ := n) ?_ k x ht hb hsc hf ?_
    (overlaySegments_nonempty _ _) ?_ r r rule rule ?_ cw minArea
  · have : (0 : Int) < m * n := by positivity
    omega
  · intro a b
    rw [keySum_overlay, keySum_overlay, hrep, hrep]
    simp [lin]
  · rw [overlaySegments_empty_iff, overlaySegments_empty_iff, hnil subj m hm, hnil clip n hn]
  · intro s c _
    simp only [ruleAt, linP, zero_mul, add_zero, zero_add]
    rw [hin m s hm fun h => (hodd h).1, hin n c hn fun h => (hodd h).2]

/-- C71: with `EvenOdd` and `NonZero` the direction of the subject contours does not matter, nor that of the clip
contours. -/
theorem C71_one_reversed (hrule : rule = .evenOdd ∨ rule = .nonZero) (subj clip : List (List Pt)) (hf : FragFor k subj clip)
    (r : OverlayRule) :
    ((∀ c ∈ subj, NoSpikes c) →
      overlayCustom k x r rule cw minArea (overlaySegments (subj.map List.reverse) clip) =
        overlayCustom k x r rule cw minArea (overlaySegments subj clip)) ∧
    ((∀ c ∈ clip, NoSpikes c) →
      overlayCustom k x r rule cw minArea (overlaySegments subj (clip.map List.reverse)) =
        overlayCustom k x r rule cw minArea (overlaySegments subj clip)) := by
  constructor <;> intro hs
  · have hp := reversed_edges hs
    refine overlay_lin (α := -1) (β := 0) (γ := 0) (δ := 1) (by decide) k x ht hb hsc hf ?_
      (overlaySegments_nonempty _ _) ?_ r r rule rule ?_ cw minArea
    · intro a b
      rw [keySum_overlay, keySum_overlay, keySum_perm hp, keySum_lin]
      simp [lin]
    · rw [overlaySegments_empty_iff, overlaySegments_empty_iff]
      have : (subj.map List.reverse).flatMap (appendContour (C := CountBool) .subject) = [] ↔
          subj.flatMap (appendContour (C := CountBool) .subject) = [] := by
        rw [← List.length_eq_zero_iff, hp.length_eq, List.length_map, List.length_eq_zero_iff]
      rw [this]
    · intro s c _
      simp only [ruleAt, linP, zero_mul, add_zero, zero_add, one_mul, neg_one_mul]
      rw [inside_neg]
      rcases hrule with rfl | rfl <;> rfl
  · have hp := reversed_edges hs
    refine overlay_lin (α := 1) (β := 0) (γ := 0) (δ := -1) (by decide) k x ht hb hsc hf ?_
      (overlaySegments_nonempty _ _) ?_ r r rule rule ?_ cw minArea
    · intro a b
      rw [keySum_overlay, keySum_overlay, keySum_perm hp, keySum_lin]
      simp [lin]
    · rw [overlaySegments_empty_iff, overlaySegments_empty_iff]
      have : (clip.map List.reverse).flatMap (appendContour (C := CountBool) .subject) = [] ↔
          clip.flatMap (appendContour (C := CountBool) .subject) = [] := by
        rw [← List.length_eq_zero_iff, hp.length_eq, List.length_map, List.length_eq_zero_iff]
      rw [this]
    · intro s c _
      simp only [ruleAt, linP, zero_mul, add_zero, zero_add, one_mul, neg_one_mul]
      rw [inside_neg]
      rcases hrule with rfl | rfl <;> rfl

/-- C71: with `EvenOdd`, adding the clip contours to the subject too exchanges subject and xor. -/
theorem C71_added_twice (subj clip : List (List Pt)) (hf : FragFor k subj clip) :
    overlayCustom k x .xor .evenOdd cw minArea (overlaySegments (subj ++ clip) clip) =
      overlayCustom k x .subject .evenOdd cw minArea (overlaySegments subj clip) ∧
    overlayCustom k x .subject .evenOdd cw minArea (overlaySegments (subj ++ clip) clip) =
      overlayCustom k x .xor .evenOdd cw minArea (overlaySegments subj clip) := by
  have hk : ∀ a b, keySum (overlaySegments (subj ++ clip) clip : List (Seg CountBool)) a b =
      lin 1 1 0 1 (keySum (overlaySegments subj clip) a b) := by
    intro a b
    rw [keySum_overlay, keySum_overlay, List.flatMap_append, keySum_append]
    simp [lin, add]
  have hemp : (overlaySegments (subj ++ clip) clip : List (Seg CountBool)) = [] ↔
      (overlaySegments subj clip : List (Seg CountBool)) = [] := by
    rw [overlaySegments_empty_iff, overlaySegments_empty_iff, List.flatMap_append, List.append_eq_nil_iff]
    tauto
  have hodd : ∀ s c : Int, FillRule.evenOdd.inside (s + c) = (FillRule.evenOdd.inside s != FillRule.evenOdd.inside c) := by
    intro s c
    simp only [FillRule.inside]
    rw [Bool.eq_iff_iff]
    simp only [bne_iff_ne, ne_eq, decide_eq_true_eq]
    rcases Int.emod_two_eq_zero_or_one s with h1 | h1 <;> rcases Int.emod_two_eq_zero_or_one c with h2 | h2 <;>
      simp [h1, h2] <;> omega
  constructor
  · refine overlay_lin (α := 1) (β := 1) (γ := 0) (δ := 1) (by decide) k x ht hb hsc hf hk (overlaySegments_nonempty _ _) hemp
      _ _ _ _ ?_ cw minArea
    intro s c _
    simp only [ruleAt, linP, zero_mul, zero_add, one_mul, hodd, OverlayRule.op]
    cases FillRule.evenOdd.inside s <;> cases FillRule.evenOdd.inside c <;> rfl
  · refine overlay_lin (α := 1) (β := 1) (γ := 0) (δ := 1) (by decide) k x ht hb hsc hf hk (overlaySegments_nonempty _ _) hemp
      _ _ _ _ ?_ cw minArea
    intro s c _
    simp only [ruleAt, linP, zero_mul, zero_add, one_mul, hodd, OverlayRule.op]

end

/-! ### examples -/

/-- The contracts hold. -/
example : exConfig.tree.Ok ∧ exConfig.tree.SeesEdges ∧ exConfig.scan.Ok :=
  ⟨bruteTree_ok, fun _ => ⟨fun _ => rfl, fun l => listPairs_mapC l⟩, listScanOracle_ok⟩

/-- A quadrilateral crossing itself in a point off the grid. -/
def exTwist : List Pt := [⟨0, 0⟩, ⟨9, 4⟩, ⟨9, 0⟩, ⟨0, 5⟩]

example : NoSpikes exTwist ∧ FragFor exConfig [exTwist] [] := ⟨by decide +kernel, FragOk.list _ _⟩

/-- Whole runs: the crossing is rounded to `(5, 2)`; the union with itself is the simplification, the difference is empty. -/
example : overlayCustom exConfig exExternals .subject .nonZero false 0 (overlaySegments [exTwist] []) =
      some [[[⟨0, 5⟩, ⟨0, 0⟩, ⟨5, 2⟩]], [[⟨9, 4⟩, ⟨5, 2⟩, ⟨9, 0⟩]]] ∧
    overlayCustom exConfig exExternals .union .nonZero false 0 (overlaySegments [exTwist] [exTwist]) =
      some [[[⟨0, 5⟩, ⟨0, 0⟩, ⟨5, 2⟩]], [[⟨9, 4⟩, ⟨5, 2⟩, ⟨9, 0⟩]]] ∧
    overlayCustom exConfig exExternals .xor .nonZero false 0 (overlaySegments [exTwist] [exTwist]) = some [] := by
  decide +kernel

/-- An even number of copies is nothing with `EvenOdd`: the hypothesis of `C71_repeated` is needed. -/
example : overlayCustom exConfig exExternals .subject .evenOdd false 0 (overlaySegments [exTwist, exTwist] []) = some [] := by
  decide +kernel

end IOverlay
