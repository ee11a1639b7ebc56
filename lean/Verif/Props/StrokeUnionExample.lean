/-
A stroke meeting the hypotheses of C76.
-/
import Verif.Props.StrokeUnion
import Verif.Props.StrokeExample

namespace IOverlay
open Complex

theorem ex_unit0 : unitTo (gridC ⟨0, 0⟩) (gridC ⟨100, 0⟩) = 1 := by
  have e : gridC ⟨100, 0⟩ - gridC ⟨0, 0⟩ = ((100 : ℝ) : ℂ) := by apply Complex.ext <;> simp [gridC]
  unfold unitTo
  rw [e, Complex.norm_real]
  norm_num

theorem ex_unit1 : unitTo (gridC ⟨100, 0⟩) (gridC ⟨100, 100⟩) = I := by
  have e : gridC ⟨100, 100⟩ - gridC ⟨100, 0⟩ = ((100 : ℝ) : ℂ) * I := by apply Complex.ext <;> simp [gridC]
  unfold unitTo
  rw [e, norm_mul, Complex.norm_real, Complex.norm_I]
  norm_num

theorem ex_len0 : ‖gridC ⟨100, 0⟩ - gridC ⟨0, 0⟩‖ = 100 := by
  have e : gridC ⟨100, 0⟩ - gridC ⟨0, 0⟩ = ((100 : ℝ) : ℂ) := by apply Complex.ext <;> simp [gridC]
  rw [e, Complex.norm_real]; norm_num

theorem ex_len1 : ‖gridC ⟨100, 100⟩ - gridC ⟨100, 0⟩‖ = 100 := by
  have e : gridC ⟨100, 100⟩ - gridC ⟨100, 0⟩ = ((100 : ℝ) : ℂ) * I := by apply Complex.ext <;> simp [gridC]
  rw [e, norm_mul, Complex.norm_real, Complex.norm_I]; norm_num

theorem ex_pair {u v : ℂ} (h : [u, v] <:+: exStrokePath) :
    (u = gridC ⟨0, 0⟩ ∧ v = gridC ⟨100, 0⟩) ∨ (u = gridC ⟨100, 0⟩ ∧ v = gridC ⟨100, 100⟩) := by
  have := mem_pairsOf.2 h
  simpa [exStrokePath, pairsOf] using this

theorem ex_triple {u v w : ℂ} (h : [u, v, w] <:+: exStrokePath) :
    u = gridC ⟨0, 0⟩ ∧ v = gridC ⟨100, 0⟩ ∧ w = gridC ⟨100, 100⟩ := by
  have := h.eq_of_length rfl
  simpa [exStrokePath] using this

theorem ex_apart : ∀ path ∈ [exStrokePath], ApartOnGrid (strokeAdapter exStrokeEnv exStyle [exStrokePath]).toInt false path := by
  intro path hp u v h
  rw [List.mem_singleton.1 hp] at h
  have e := exOps_toInt
  rcases ex_pair h with ⟨rfl, rfl⟩ | ⟨rfl, rfl⟩
  · intro hc
    have hc' : exOps.toInt (gridC ⟨0, 0⟩) = exOps.toInt (gridC ⟨100, 0⟩) := hc
    rw [e, e] at hc'
    exact absurd hc' (by decide)
  · intro hc
    have hc' : exOps.toInt (gridC ⟨100, 0⟩) = exOps.toInt (gridC ⟨100, 100⟩) := hc
    rw [e, e] at hc'
    exact absurd hc' (by decide)

theorem ex_long : ∀ path ∈ [exStrokePath], LongSections exStyle.radius false path := by
  intro path hp u v w h
  rw [List.mem_singleton.1 hp] at h
  obtain ⟨rfl, rfl, rfl⟩ := ex_triple h
  rw [ex_unit0, ex_unit1, ex_len0, ex_len1, exStyle_radius]
  simp; norm_num

theorem ex_wide : 1 < |(strokeAdapter exStrokeEnv exStyle [exStrokePath]).lenToInt (0.5 * exStyle.width)| := by
  have hw : (0.5 * exStyle.width : ℝ) = ((10 : ℤ) : ℝ) := by
    have : exStyle.width = 20 := rfl
    rw [this]; norm_num
  rw [hw]
  have : (strokeAdapter exStrokeEnv exStyle [exStrokePath]).lenToInt ((10 : ℤ) : ℝ) = 10 := round_intCast 10
  rw [this]
  norm_num

/-- C76 applies to this stroke. -/
example : ∃ shapes : List (List (List Pt)),
    [[exContour.map gridC]] = shapes.map (fun sh => sh.map fun d => d.map (strokeAdapter exStrokeEnv exStyle [exStrokePath]).toFloat) ∧
    ∀ (t y : ℝ) q, fromGrid 1 0 q = gridC ⟨0, 0⟩ + (t * 1 + y * (I * 1)) → 0 < t → t < 100 → |y| < 10 →
      (∀ path ∈ [exStrokePath], ∀ a b,
        StrokeSide (strokeAdapter exStrokeEnv exStyle [exStrokePath]).toInt exStyle false path a b →
        ¬ NearLine (roundingError exOff 1 (1 / 2)) (fromGrid 1 0 q) a b) →
      polysWind shapes.flatten q = 1 := by
  obtain ⟨shapes, h1, h2⟩ := C76_section exStrokeEnv exOff exRaw exOff_assumed exStyle false false [exStrokePath] ex_regular
    1 0 (1 / 2) 0 (C72_rectangle exStyle false (Or.inr ⟨trivial, trivial⟩) [exStrokePath] _ 1 0 (1 / 2) 0 ex_good)
    ex_wide (Or.inr ⟨trivial, trivial⟩) ex_apart ex_long _ ex_result
  refine ⟨shapes, h1, fun t y q hq t0 t1 hy hfar => ?_⟩
  refine h2 exStrokePath (by simp) (gridC ⟨0, 0⟩) (gridC ⟨100, 0⟩) ⟨[], [gridC ⟨100, 100⟩], rfl⟩ t y q ?_ t0 ?_ ?_ hfar
  · rw [ex_unit0]; exact hq
  · rw [ex_len0]; exact t1
  · have : exStyle.width = 20 := rfl
    rw [this]; norm_num; exact hy

end IOverlay
