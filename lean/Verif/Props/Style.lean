/-
C75: the setters of the styles.
-/
import Verif.OutlineStyle

namespace IOverlay
open Complex

theorem clampR_idem (x : ℝ) {lo hi : ℝ} (h : lo ≤ hi) : clampR (clampR x lo hi) lo hi = clampR x lo hi := by
  unfold clampR
  rcases le_total x hi with h1 | h1
  · rw [min_eq_left h1, min_eq_left (max_le h h1), max_eq_right (le_max_left _ _)]
  · rw [min_eq_right h1, max_eq_right h, min_self, max_eq_right h]

theorem pi_clamp {a b : ℝ} (h : a ≤ b) : a * Real.pi ≤ b * Real.pi := mul_le_mul_of_nonneg_right h Real.pi_pos.le

theorem LineJoin.normalize_idem (j : LineJoin) : j.normalize.normalize = j.normalize := by
  cases j with
  | bevel => rfl
  | miter a => exact congrArg LineJoin.miter (clampR_idem a (pi_clamp (by norm_num)))
  | round a => exact congrArg LineJoin.round (clampR_idem a (pi_clamp (by norm_num)))

theorem LineCap.normalize_idem (c : LineCap) : c.normalize.normalize = c.normalize := by
  cases c with
  | round a => exact congrArg LineCap.round (clampR_idem a (pi_clamp (by norm_num)))
  | _ => rfl

section
variable (e : StrokeEnv) (k : OffConfig) (x : Externals) (s : StrokeStyle) (closed cw clean : Bool) (paths : List (List ℂ))

/-- A stroke depends on join and caps through their normalized versions only. -/
theorem stroke_congr {s s' : StrokeStyle} (h1 : s.width = s'.width) (h2 : s.join.normalize = s'.join.normalize)
    (h3 : s.startCap.normalize = s'.startCap.normalize) (h4 : s.endCap.normalize = s'.endCap.normalize) :
    strokeCustom e k x s closed cw clean paths = strokeCustom e k x s' closed cw clean paths := by
  have hr : s.radius = s'.radius := by unfold StrokeStyle.radius; rw [h1]
  have hp : s.params = s'.params := by unfold StrokeStyle.params; rw [hr, h2, h3, h4]
  have ho : s.offset = s'.offset := by unfold StrokeStyle.offset; rw [hr, h1, h2, hp]
  unfold strokeCustom strokeRect
  rw [h1, h2, hp, ho]

/-- C75 (setters): the setters of a stroke style give the result of writing the fields; angles out of range act as the nearest
allowed ones either way. -/
theorem C75_stroke_setters (j : LineJoin) (c : LineCap) :
    strokeCustom e k x (s.setJoin j) closed cw clean paths = strokeCustom e k x { s with join := j } closed cw clean paths ∧
    strokeCustom e k x (s.setStartCap c) closed cw clean paths = strokeCustom e k x { s with startCap := c } closed cw clean paths ∧
    strokeCustom e k x (s.setEndCap c) closed cw clean paths = strokeCustom e k x { s with endCap := c } closed cw clean paths :=
  ⟨stroke_congr _ _ _ _ _ _ _ rfl (LineJoin.normalize_idem j) rfl rfl,
    stroke_congr _ _ _ _ _ _ _ rfl rfl (LineCap.normalize_idem c) rfl,
    stroke_congr _ _ _ _ _ _ _ rfl rfl rfl (LineCap.normalize_idem c)⟩

/-- C75 (angles): a miter limit outside 0.01 π .. 0.99 π and the step of round joins and caps outside 0.01 π .. 0.25 π act as
the nearest end of the interval. -/
theorem C75_stroke_angles (a : ℝ) :
    strokeCustom e k x { s with join := .miter a } closed cw clean paths =
      strokeCustom e k x { s with join := .miter (max (0.01 * Real.pi) (min a (0.99 * Real.pi))) } closed cw clean paths ∧
    strokeCustom e k x { s with join := .round a } closed cw clean paths =
      strokeCustom e k x { s with join := .round (max (0.01 * Real.pi) (min a (0.25 * Real.pi))) } closed cw clean paths ∧
    strokeCustom e k x { s with startCap := .round a, endCap := .round a } closed cw clean paths =
      strokeCustom e k x { s with startCap := .round (max (0.01 * Real.pi) (min a (0.25 * Real.pi))),
                                  endCap := .round (max (0.01 * Real.pi) (min a (0.25 * Real.pi))) } closed cw clean paths :=
  ⟨stroke_congr _ _ _ _ _ _ _ rfl (LineJoin.normalize_idem (.miter a)).symm rfl rfl,
    stroke_congr _ _ _ _ _ _ _ rfl (LineJoin.normalize_idem (.round a)).symm rfl rfl,
    stroke_congr _ _ _ _ _ _ _ rfl rfl (LineCap.normalize_idem (.round a)).symm (LineCap.normalize_idem (.round a)).symm⟩

/-- C75 (order): setters of different fields can be called in any order, and the last one counts. -/
theorem C75_stroke_order (w w' : ℝ) (j j' : LineJoin) (c d c' d' : LineCap) :
    (((s.setWidth w).setJoin j).setStartCap c).setEndCap d = (((s.setEndCap d).setStartCap c).setJoin j).setWidth w ∧
    (((((s.setWidth w').setJoin j').setStartCap c').setEndCap d').setWidth w).setJoin j =
      (((s.setWidth w).setJoin j).setStartCap c').setEndCap d' ∧
    ((((s.setStartCap c').setEndCap d').setStartCap c).setEndCap d) = (s.setStartCap c).setEndCap d :=
  ⟨rfl, rfl, rfl⟩

/-- C75 (thin strokes): nothing is returned if half the width is at most one unit of the grid. -/
theorem C75_thin (h : |(e.adapterOf (strokeRect s paths)).lenToInt (0.5 * s.width)| ≤ 1) :
    strokeCustom e k x s closed cw clean paths = some [] := by
  unfold strokeCustom
  split
  · rfl
  · dsimp only
    rw [if_pos (decide_eq_true h)]

/-- C75 (negative widths): set through the setter, a width that is not positive gives nothing (if the adapter converts the
length zero to zero). -/
theorem C75_width (w : ℝ) (hw : w ≤ 0) (h0 : ∀ r, (e.adapterOf r).lenToInt 0 = 0) :
    strokeCustom e k x (s.setWidth w) closed cw clean paths = some [] := by
  refine C75_thin _ _ _ _ _ _ _ _ ?_
  have : 0.5 * (s.setWidth w).width = 0 := by
    show 0.5 * max w 0 = 0
    rw [max_eq_right hw, mul_zero]
  rw [this, h0]
  decide

end

section
variable (e : OutlineEnv) (k : OffConfig) (kb : Config) (x : Externals) (s : OutlineStyle) (cw : Bool) (minArea : ℝ) (clean : Bool)
  (paths : List (List ℂ))

/-- C75 (outlines, angles): as for strokes. -/
theorem C75_outline_angles (a : ℝ) :
    outlineCustom e k kb x (s.setJoin (.miter a)) cw minArea clean paths =
      outlineCustom e k kb x (s.setJoin (.miter (max (0.01 * Real.pi) (min a (0.99 * Real.pi))))) cw minArea clean paths ∧
    outlineCustom e k kb x (s.setJoin (.round a)) cw minArea clean paths =
      outlineCustom e k kb x (s.setJoin (.round (max (0.01 * Real.pi) (min a (0.25 * Real.pi))))) cw minArea clean paths := by
  have key : ∀ j j' : LineJoin, j.normalize = j'.normalize →
      outlineCustom e k kb x (s.setJoin j) cw minArea clean paths = outlineCustom e k kb x (s.setJoin j') cw minArea clean paths := by
    intro j j' h
    have ha : (s.setJoin j).additional = (s.setJoin j').additional := by
      show |j.normalize.oOffset _ _| + |j.normalize.oOffset _ _| = |j'.normalize.oOffset _ _| + |j'.normalize.oOffset _ _|
      rw [h]; rfl
    have hp : (s.setJoin j).params = (s.setJoin j').params := by
      show OutlineParams.mk _ (j.normalize.oBuild _) _ (j.normalize.oBuild _) = OutlineParams.mk _ (j'.normalize.oBuild _) _ (j'.normalize.oBuild _)
      rw [h]; rfl
    have hr : outlineAdapter e (s.setJoin j) paths = outlineAdapter e (s.setJoin j') paths := by
      unfold outlineAdapter outlineRect; rw [ha]
    have hj : (s.setJoin j).join.normalize = (s.setJoin j').join.normalize := h
    unfold outlineCustom
    rw [hr, hp, hj]
  exact ⟨key _ _ (LineJoin.normalize_idem (.miter a)).symm, key _ _ (LineJoin.normalize_idem (.round a)).symm⟩

/-- C75 (outlines, setters): `offset` sets both offsets; setters of different fields can be called in any order and the last
one counts; `new(offset)` is the default style with this offset. -/
theorem C75_outline_order (a b c : ℝ) (j : LineJoin) :
    ((s.setOuter a).setInner b).setJoin j = ((s.setJoin j).setInner b).setOuter a ∧
    (s.setOuter a).setInner a = s.setOffset a ∧ (s.setOffset c).setOuter a = (s.setInner c).setOuter a ∧
    (s.setOffset c).setInner b = (s.setOuter c).setInner b ∧ OutlineStyle.new a = OutlineStyle.default.setOffset a ∧
    OutlineStyle.default = (OutlineStyle.new 1).setJoin .bevel :=
  ⟨rfl, rfl, rfl, rfl, rfl, rfl⟩

/-- C75 (outlines): nothing is returned without a path, or for a single path of area at least -1 in grid units (negative:
counterclockwise), whatever the style. -/
theorem C75_outline_nothing (path : List ℂ) (h : -1 ≤ e.area (outlineAdapter e s [path]) path) :
    outlineCustom e k kb x s cw minArea clean [] = some [] ∧ outlineCustom e k kb x s cw minArea clean [path] = some [] := by
  constructor
  · rfl
  · unfold outlineCustom outlineNothing
    dsimp only
    rw [if_pos (decide_eq_true h)]

end

/-- The hypothesis of C75_width holds, for example, for truncation. -/
example : ∀ r : FRect, ((⟨fun _ => ⟨fun z => ⟨⌊z.re⌋, ⌊z.im⌋⟩, fun p => ⟨p.x, p.y⟩, fun l => ⌊l⌋⟩, fun _ l => l⟩ : StrokeEnv).adapterOf
    r).lenToInt 0 = 0 := by
  intro r
  show ⌊(0 : ℝ)⌋ = 0
  simp

end IOverlay
