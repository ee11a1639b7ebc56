/-
Segment fill masks, overlay filters and fill strategies.
-/
import Verif.Spec
import Verif.Segm

namespace IOverlay

/-- `SegmentFill = u8`, segm/segment.rs:7. -/
abbrev Fill := BitVec 8

/-- segm/segment.rs:9-21. -/
def NONE : Fill := 0#8
def SUBJ_TOP : Fill := 0b0001#8
def SUBJ_BOTTOM : Fill := 0b0010#8
def CLIP_TOP : Fill := 0b0100#8
def CLIP_BOTTOM : Fill := 0b1000#8
def SUBJ_BOTH : Fill := SUBJ_TOP ||| SUBJ_BOTTOM
def CLIP_BOTH : Fill := CLIP_TOP ||| CLIP_BOTTOM
def BOTH_TOP : Fill := SUBJ_TOP ||| CLIP_TOP
def BOTH_BOTTOM : Fill := SUBJ_BOTTOM ||| CLIP_BOTTOM
def ALL : Fill := SUBJ_BOTH ||| CLIP_BOTH

/-! ### core/filter.rs:165-286 -/

/-- core/filter.rs:181-186 -/
def isSubject (fill : Fill) : Bool :=
  let subj := fill &&& SUBJ_BOTH
  subj == SUBJ_TOP || subj == SUBJ_BOTTOM

/-- core/filter.rs:188-193 -/
def isClip (fill : Fill) : Bool :=
  let clip := fill &&& CLIP_BOTH
  clip == CLIP_TOP || clip == CLIP_BOTTOM

/-- core/filter.rs:195-202 -/
def isIntersect (fill : Fill) : Bool :=
  let top := fill &&& BOTH_TOP
  let bottom := fill &&& BOTH_BOTTOM
  (top == BOTH_TOP || bottom == BOTH_BOTTOM) && fill != ALL

/-- core/filter.rs:204-210 -/
def isUnion (fill : Fill) : Bool :=
  let top := fill &&& BOTH_TOP
  let bottom := fill &&& BOTH_BOTTOM
  (top == 0#8 || bottom == 0#8) && fill != 0#8

/-- core/filter.rs:212-219 -/
def isDifference (fill : Fill) : Bool :=
  let top := fill &&& BOTH_TOP
  let bottom := fill &&& BOTH_BOTTOM
  let isNotInnerSubj := fill != SUBJ_BOTH
  (top == SUBJ_TOP || bottom == SUBJ_BOTTOM) && isNotInnerSubj

/-- core/filter.rs:221-228 -/
def isInverseDifference (fill : Fill) : Bool :=
  let top := fill &&& BOTH_TOP
  let bottom := fill &&& BOTH_BOTTOM
  let isNotInnerClip := fill != CLIP_BOTH
  (top == CLIP_TOP || bottom == CLIP_BOTTOM) && isNotInnerClip

/-- core/filter.rs:230-241 -/
def isXor (fill : Fill) : Bool :=
  let top := fill &&& BOTH_TOP
  let bottom := fill &&& BOTH_BOTTOM
  let isAnyTop := top == SUBJ_TOP || top == CLIP_TOP
  let isAnyBottom := bottom == SUBJ_BOTTOM || bottom == CLIP_BOTTOM
  isAnyTop != isAnyBottom

/-- core/filter.rs:243-247 -/
def isFiller (fill : Fill) : Bool :=
  fill == NONE || fill == SUBJ_BOTH || fill == CLIP_BOTH || fill == ALL

/-- `count_ones` on `fill & SUBJ_BOTH` (only two bits can be set). -/
def subjOnes (fill : Fill) : Nat :=
  (if (fill &&& SUBJ_BOTH) &&& SUBJ_TOP == 0#8 then 0 else 1) +
  (if (fill &&& SUBJ_BOTH) &&& SUBJ_BOTTOM == 0#8 then 0 else 1)

/-- core/filter.rs:249-257 -/
def isStrOutsideExcluded (fill : Fill) : Bool :=
  if fill &&& CLIP_BOTH != 0#8 then decide (subjOnes fill < 2) else false
/-- core/filter.rs:259-267 -/
def isStrOutsideIncluded (fill : Fill) : Bool :=
  if fill &&& CLIP_BOTH != 0#8 then subjOnes fill == 0 else false
/-- core/filter.rs:269-277 -/
def isStrInsideIncluded (fill : Fill) : Bool :=
  if fill &&& CLIP_BOTH != 0#8 then decide (subjOnes fill ≥ 1) else false
/-- core/filter.rs:279-287 -/
def isStrInsideExcluded (fill : Fill) : Bool :=
  if fill &&& CLIP_BOTH != 0#8 then subjOnes fill == 2 else false

/-- Dispatch of `build_with_overlay_filter`, core/link.rs:51-61 with the `InclusionFilterStrategy`
impls of core/filter.rs:46-100. -/
def isIncluded : OverlayRule → Fill → Bool
  | .subject => isSubject
  | .clip => isClip
  | .intersect => isIntersect
  | .union => isUnion
  | .difference => isDifference
  | .inverseDifference => isInverseDifference
  | .xor => isXor

/-- `FillerFilter::is_included`, core/filter.rs:95-100, used for graphs. -/
def isGraphIncluded (fill : Fill) : Bool := !isFiller fill

/-- `MaskFilter::filter_by_rule` for one link, core/filter.rs:10-23, 130-163: the initial
"visited" flag when extracting from a graph. -/
def maskFilter : OverlayRule → Fill → Bool
  | .subject, fill => !isSubject fill
  | .clip, fill => !isClip fill
  | .intersect, fill => !isIntersect fill
  | .union, fill => !isUnion fill
  | .difference, fill => !isDifference fill
  | .xor, fill => !isXor fill
  | .inverseDifference, fill => !isInverseDifference fill

/-- `OverlayRule::is_fill_top`, core/overlay_rule.rs:26-40. -/
def isFillTop : OverlayRule → Fill → Bool
  | .subject, fill => fill &&& SUBJ_TOP == SUBJ_TOP
  | .clip, fill => fill &&& CLIP_TOP == CLIP_TOP
  | .intersect, fill => fill &&& BOTH_TOP == BOTH_TOP
  | .union, fill => fill &&& BOTH_BOTTOM == NONE
  | .difference, fill => fill &&& BOTH_TOP == SUBJ_TOP
  | .inverseDifference, fill => fill &&& BOTH_TOP == CLIP_TOP
  | .xor, fill =>
    let isSubject := fill &&& BOTH_TOP == SUBJ_TOP
    let isClip := fill &&& BOTH_TOP == CLIP_TOP
    isSubject || isClip

/-- `ClipRule`, string/clip.rs:12-19. -/
structure ClipRule where
  invert : Bool
  boundaryIncluded : Bool
deriving DecidableEq, Repr

/-- Dispatch of `build_string_with_clip_rule`, core/link.rs:72-83. -/
def isClipIncluded : ClipRule → Fill → Bool
  | ⟨true, true⟩ => isStrOutsideIncluded
  | ⟨true, false⟩ => isStrOutsideExcluded
  | ⟨false, true⟩ => isStrInsideIncluded
  | ⟨false, false⟩ => isStrInsideExcluded

/-! ### fill strategies, core/link.rs:154-284 -/

/-- `bool as SegmentFill`. -/
def b8 (b : Bool) : Fill := if b then 1#8 else 0#8

/-- The per-rule conversion of a winding number to a bit: `1 & w as u8`, `(w != 0) as u8`,
`(w > 0) as u8`, `(w < 0) as u8` (core/link.rs:163-166, 177-180, 191-194, 205-208). The cast
`i32 as u8` keeps the low 8 bits, as `BitVec.ofInt 8` does. -/
def fillBit : FillRule → Int → Fill
  | .evenOdd, w => 1#8 &&& BitVec.ofInt 8 w
  | .nonZero, w => b8 (w != 0)
  | .positive, w => b8 (decide (w > 0))
  | .negative, w => b8 (decide (w < 0))

/-- `FillStrategy<ShapeCountBoolean>::add_and_fill` for the four strategies, core/link.rs:159-214. -/
def addAndFillBool (rule : FillRule) (this bot : CountBool) : CountBool × Fill :=
  let top := WindingCount.add bot this
  let subjTop := fillBit rule top.subj
  let subjBot := fillBit rule bot.subj
  let clipTop := fillBit rule top.clip
  let clipBot := fillBit rule bot.clip
  (top, subjTop ||| (subjBot <<< 1) ||| (clipTop <<< 2) ||| (clipBot <<< 3))

/-- The clip mask of a string count as `u8`, segm/winding_count.rs:16-17. -/
def clipMask (c : CountStr) : Fill := b8 c.back ||| (b8 c.fwd <<< 1)

/-- `FillStrategy<ShapeCountString>::add_and_fill` for the four strategies, core/link.rs:221-284. -/
def addAndFillStr (rule : FillRule) (this bot : CountStr) : CountStr × Fill :=
  let top : CountStr := ⟨bot.subj + this.subj, false, false⟩
  let subjTop := fillBit rule top.subj
  let subjBot := fillBit rule bot.subj
  (top, subjTop ||| (subjBot <<< 1) ||| (clipMask this <<< 2))

/-! ### vector edges, vector/edge.rs -/

/-- vector/edge.rs:8-11 -/
def SUBJ_LEFT : Fill := 0b0001#8
def SUBJ_RIGHT : Fill := 0b0010#8
def CLIP_LEFT : Fill := 0b0100#8
def CLIP_RIGHT : Fill := 0b1000#8

/-- `Reverse for SideFill`, vector/edge.rs:17-26. -/
def sideReverse (f : Fill) : Fill :=
  let subjLeft := f &&& SUBJ_LEFT
  let subjRight := f &&& SUBJ_RIGHT
  let clipLeft := f &&& CLIP_LEFT
  let clipRight := f &&& CLIP_RIGHT
  (subjLeft <<< 1) ||| (subjRight >>> 1) ||| (clipLeft <<< 1) ||| (clipRight >>> 1)

/-- `VectorEdge`, vector/edge.rs:28-33. -/
structure VectorEdge where
  a : Pt
  b : Pt
  fill : Fill
deriving DecidableEq, Repr

/-- `VectorEdge::new`, vector/edge.rs:35-44. -/
def VectorEdge.new (fill : Fill) (a b : Pt) : VectorEdge :=
  let fill := if a < b then fill else sideReverse fill
  ⟨a, b, fill⟩

end IOverlay
