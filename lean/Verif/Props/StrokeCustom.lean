/-
Custom caps may leave the rectangle of the adapter.
-/
import Verif.Props.Stroke
import Verif.Props.StrokeShape
namespace IOverlay
open Complex
/-- The condition of `C72_rectangle` on the caps is needed: the point of this custom cap is registered at 110, far outside of the
rectangle the adapter is made for (its right side is at 101.1), so nothing guarantees that it is representable on the grid. -/
theorem C72_custom_outside (toInt : ℂ → Pt) (ratio : ℝ) (s : StrokeStyle) (hs : s = (StrokeStyle.new 2).setEndCap (.custom [10])) :
    toInt 110 ∈ (realOps toInt ratio).endPiece s.params.endCap ((realOps toInt ratio).section s.radius 0 100) ∧
    ¬ (strokeRect s [[0, 100]]).Has 110 ∧ (strokeRect s [[0, 100]]).maxX = 101.1 := by
  have hrad : s.radius = 1 := by
    rw [hs]
    show 0.5 * max (2 : ℝ) 0 = 1
    rw [max_eq_left (by norm_num)]; norm_num
  have h100 : (0 : ℂ) ≠ 100 := by norm_num
  have hu : unitTo 0 100 = 1 := by unfold unitTo; simp
  have he : s.endCap = .custom [10] := by rw [hs]; rfl
  have hst : s.startCap = .butt := by rw [hs]; rfl
  have hj : s.join = .bevel := by rw [hs]; rfl
  have hw : s.width = 2 := by rw [hs]; rfl
  have hmax : (strokeRect s [[0, 100]]).maxX = 101.1 := by
    have ho : s.offset = 1.1 := by
      unfold StrokeStyle.offset StrokeStyle.params
      rw [he, hst, hj, hw]
      simp [capOffset, rectOf, LineJoin.normalize, LineCap.normalize, LineJoin.offset, LineCap.points]
      norm_num
    unfold strokeRect FRect.addOffset
    rw [ho]
    simp [rectOf]
    norm_num
  refine ⟨?_, fun h => ?_, hmax⟩
  · have := ((C73_cap (toInt := toInt) (ratio := ratio) s h100 (.custom [10]) (by intro a h; cases h)).2 he)
    rw [this, hu, hrad]
    have e : (110 : ℂ) = 100 + 1 * (10 * ((1 : ℝ) : ℂ)) := by norm_num
    rw [e]
    refine List.mem_map_of_mem ?_
    exact List.mem_append_left _ (List.mem_cons_of_mem _ (List.mem_cons_self ..))
  · have := h.2.1
    rw [hmax] at this
    norm_num at this
end IOverlay
