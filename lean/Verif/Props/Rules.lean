/-
Properties of rules, filters, masks: C02, C03, C11, C28, C34.
-/
import Verif.RuleLemmas

namespace IOverlay
open WindingCount

/-! Reading the four flags of a stored mask, one bit each (segm/segment.rs:9-12). -/

def subjTop (f : Fill) : Bool := f.getLsbD 0
def subjBottom (f : Fill) : Bool := f.getLsbD 1
def clipTop (f : Fill) : Bool := f.getLsbD 2
def clipBottom (f : Fill) : Bool := f.getLsbD 3

theorem mkFill_bits (st sb ct cb : Bool) :
    subjTop (mkFill st sb ct cb) = st ∧ subjBottom (mkFill st sb ct cb) = sb ∧
    clipTop (mkFill st sb ct cb) = ct ∧ clipBottom (mkFill st sb ct cb) = cb := by
  revert st sb ct cb; decide

/-- Every mask without the upper four bits is determined by its four flags. -/
theorem fill_eq_mkFill (f : Fill) (h : f < 16#8) :
    f = mkFill (subjTop f) (subjBottom f) (clipTop f) (clipBottom f) := by
  revert f; decide

theorem mkFill_lt (st sb ct cb : Bool) : mkFill st sb ct cb < 16#8 := by
  revert st sb ct cb; decide

/-- C02: an edge is kept by a rule iff the rule's truth value above it differs from the one below. -/
theorem C02_kept_iff_boundary (r : OverlayRule) (f : Fill) (h : f < 16#8) :
    isIncluded r f = true ↔
      r.op (subjTop f) (clipTop f) ≠ r.op (subjBottom f) (clipBottom f) := by
  conv_lhs => rw [fill_eq_mkFill f h]
  rw [isIncluded_mkFill]; simp

/-- C02, second half: for a kept edge the "filled above" test is the rule's value above. -/
theorem C02_fill_top (r : OverlayRule) (f : Fill) (h : f < 16#8) (hk : isIncluded r f = true) :
    isFillTop r f = r.op (subjTop f) (clipTop f) := by
  have := (C02_kept_iff_boundary r f h).1 hk
  conv_lhs => rw [fill_eq_mkFill f h]
  exact isFillTop_mkFill r _ _ _ _ this

/-- Every mask the boolean fill strategies produce satisfies the hypothesis. -/
theorem addAndFillBool_lt (r : FillRule) (this bot : CountBool) : (addAndFillBool r this bot).2 < 16#8 := by
  rw [addAndFillBool_eq]; exact mkFill_lt _ _ _ _

example : ∃ f : Fill, f < 16#8 ∧ isIncluded .difference f = true ∧ isIncluded .union f = false :=
  ⟨0b0111#8, by decide⟩

/-- C03: the four flags stored for an edge with counts `this`, the winding numbers below being
`bot`, are the fill rule applied to the winding numbers of both sides; and the winding numbers handed
on for the side above are those below plus the edge's own counts. -/
theorem C03_fill_flags (rule : FillRule) (this bot : CountBool) :
    let r := addAndFillBool rule this bot
    r.1.subj = bot.subj + this.subj ∧ r.1.clip = bot.clip + this.clip ∧
    subjTop r.2 = rule.inside (bot.subj + this.subj) ∧ subjBottom r.2 = rule.inside bot.subj ∧
    clipTop r.2 = rule.inside (bot.clip + this.clip) ∧ clipBottom r.2 = rule.inside bot.clip := by
  rw [addAndFillBool_eq]
  exact ⟨rfl, rfl, (mkFill_bits _ _ _ _).1, (mkFill_bits _ _ _ _).2.1, (mkFill_bits _ _ _ _).2.2.1,
    (mkFill_bits _ _ _ _).2.2.2⟩

/-- C03 for string overlays: subject flags as for shapes; the other two bits are the direction flags
of the string line. -/
theorem C03_fill_flags_string (rule : FillRule) (this bot : CountStr) :
    let r := addAndFillStr rule this bot
    r.1.subj = bot.subj + this.subj ∧
    subjTop r.2 = rule.inside (bot.subj + this.subj) ∧ subjBottom r.2 = rule.inside bot.subj ∧
    clipTop r.2 = this.back ∧ clipBottom r.2 = this.fwd := by
  rw [addAndFillStr_eq]
  exact ⟨rfl, (mkFill_bits _ _ _ _).1, (mkFill_bits _ _ _ _).2.1, (mkFill_bits _ _ _ _).2.2.1,
    (mkFill_bits _ _ _ _).2.2.2⟩

/-- What the rules mean, in words of winding numbers. -/
theorem C03_fill_rule_meaning (w : Int) :
    (FillRule.evenOdd.inside w = true ↔ ∃ k, w = 2 * k + 1) ∧
    (FillRule.nonZero.inside w = true ↔ w ≠ 0) ∧
    (FillRule.positive.inside w = true ↔ 0 < w) ∧
    (FillRule.negative.inside w = true ↔ w < 0) := by
  refine ⟨?_, ?_, ?_, ?_⟩
  · simp only [FillRule.inside, beq_iff_eq]
    constructor
    · intro h; exact ⟨w / 2, by omega⟩
    · rintro ⟨k, rfl⟩; omega
  all_goals simp [FillRule.inside]

/-- C11: extraction of rule `R` from a prebuilt graph starts from the links that the graph filter
kept and that rule `R` does not mask; these are exactly the links the one-shot overlay keeps. -/
theorem C11_graph_filter (r : OverlayRule) (f : Fill) (h : f < 16#8) :
    (isGraphIncluded f && !maskFilter r f) = isIncluded r f := by
  rw [fill_eq_mkFill f h]
  generalize subjTop f = a; generalize subjBottom f = b
  generalize clipTop f = c; generalize clipBottom f = d
  revert a b c d; cases r <;> decide

/-- Where a piece of string line lies relative to the filled shape. -/
inductive Place | inside | boundary | outside
deriving DecidableEq

/-- Both sides filled: inside; one: on the boundary; none: outside. -/
def place (f : Fill) : Place :=
  match subjTop f, subjBottom f with
  | true, true => .inside
  | false, false => .outside
  | _, _ => .boundary

/-- A link carries a piece of string line. -/
def isString (f : Fill) : Bool := clipTop f || clipBottom f

/-- C28: which pieces a clip rule keeps. A boundary piece counts as inside iff boundaries are
included; `invert` keeps what is not inside. -/
theorem C28_clip_rule (rule : ClipRule) (f : Fill) (h : f < 16#8) :
    isClipIncluded rule f = true ↔
      isString f = true ∧
      ((place f = .inside ∨ (place f = .boundary ∧ rule.boundaryIncluded = true)) ↔
        rule.invert = false) := by
  obtain ⟨i, b⟩ := rule
  revert f; revert i b; decide

/-- C34: reversing an edge swaps left and right flags. -/
theorem C34_reverse_swaps (f : Fill) (h : f < 16#8) :
    subjTop (sideReverse f) = subjBottom f ∧ subjBottom (sideReverse f) = subjTop f ∧
    clipTop (sideReverse f) = clipBottom f ∧ clipBottom (sideReverse f) = clipTop f ∧
    sideReverse (sideReverse f) = f := by
  revert f; decide

/-- C34: built from either end, an edge describes the same two sides: its left flags in one direction
are its right flags in the other; and for the left-to-right direction left is the upper side. -/
theorem C34_vector_edge (f : Fill) (h : f < 16#8) (a b : Pt) (hab : a ≠ b) :
    subjTop (VectorEdge.new f a b).fill = subjBottom (VectorEdge.new f b a).fill ∧
    clipTop (VectorEdge.new f a b).fill = clipBottom (VectorEdge.new f b a).fill ∧
    (a < b → (VectorEdge.new f a b).fill = f) ∧
    (VectorEdge.new f a b).a = a ∧ (VectorEdge.new f a b).b = b := by
  have hr := C34_reverse_swaps f h
  unfold VectorEdge.new
  by_cases h1 : a < b
  · have h2 : ¬ b < a := fun h => Pt.lt_asymm h1 h
    simp [h1, h2, hr]
  · have h2 : b < a := Pt.lt_of_not_lt_ne h1 hab
    simp [h1, h2, hr]

example : (VectorEdge.new 0b0101#8 ⟨3, 0⟩ ⟨0, 0⟩).fill = 0b1010#8 := by decide

end IOverlay
