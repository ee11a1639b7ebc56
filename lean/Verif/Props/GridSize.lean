/-
C36: the number of columns of the grid is bounded by the root of the number of edges.
-/
import Verif.Fragment
import Mathlib.Tactic.Ring
import Mathlib.Tactic.NormNum
import Mathlib.Tactic.Positivity

namespace IOverlay

/-- C36 (size of the grid): a grid is used only for edges at least four units wide together; its columns are at least two units
wide; and with `n` edges the last column has a number `c` with `c * c < 4 * n`. -/
theorem C36_columns {C : Type} (segs : List (Seg C)) (g : Grid) (h : Grid.new segs = some g) :
    4 ≤ g.maxX - g.minX ∧ 2 ≤ 2 ^ g.power ∧ g.index g.maxX * g.index g.maxX < 4 * segs.length := by
  cases segs with
  | nil => simp [Grid.new] at h
  | cons s rest =>
    unfold Grid.new Grid.withMinMax at h
    dsimp only at h
    generalize rest.foldl (fun m t => max t.b.x m) s.b.x = M at h
    have hn : (s :: rest).length ≠ 0 := by simp
    generalize (s :: rest).length = n at h hn
    split at h
    · simp at h
    rename_i hdx
    obtain rfl := Option.some.inj h
    unfold Grid.index
    dsimp only
    obtain ⟨d, hd⟩ : ∃ d : Nat, M - s.a.x = d := ⟨(M - s.a.x).toNat, by omega⟩
    rw [hd] at hdx ⊢
    have hd4 : 4 ≤ d := by omega
    rw [Int.toNat_natCast]
    have lt1 : d < 2 ^ (d.log2 + 1) := Nat.lt_log2_self
    have hmp : 2 ^ (n.log2 / 2) * 2 ^ (n.log2 / 2) ≤ n := by
      rw [← pow_add]
      calc 2 ^ (n.log2 / 2 + n.log2 / 2) ≤ 2 ^ n.log2 := Nat.pow_le_pow_right (by norm_num) (by omega)
        _ ≤ n := Nat.log2_self_le hn
    generalize n.log2 / 2 = mp at *
    have key : ∀ p : Nat, d / 2 ^ p < 2 ^ (mp + 1) → ((d : Int) / 2 ^ p).toNat * ((d : Int) / 2 ^ p).toNat < 4 * n := by
      intro p hp
      have e : ((d : Int) / 2 ^ p).toNat = d / 2 ^ p := by
        have : ((d : Int) / 2 ^ p) = ((d / 2 ^ p : Nat) : Int) := by push_cast; rfl
        rw [this, Int.toNat_natCast]
      rw [e]
      have h1 := Nat.mul_lt_mul'' hp hp
      have h2 : 2 ^ (mp + 1) * 2 ^ (mp + 1) = 4 * (2 ^ mp * 2 ^ mp) := by rw [pow_succ]; ring
      rw [h2] at h1
      exact lt_of_lt_of_le h1 (Nat.mul_le_mul_left 4 hmp)
    refine ⟨by omega, ?_, key _ ?_⟩
    · split
      · exact Nat.le_self_pow (by omega) 2
      · norm_num
    · rw [Nat.div_lt_iff_lt_mul (by positivity), ← pow_add]
      refine lt_of_lt_of_le lt1 (Nat.pow_le_pow_right (by norm_num) ?_)
      split <;> omega

/-- Four edges of a square get a grid. -/
example : ∃ g, Grid.new [⟨⟨0, 0⟩, ⟨0, 100⟩, ()⟩, ⟨⟨0, 0⟩, ⟨100, 0⟩, ()⟩, ⟨⟨0, 100⟩, ⟨100, 100⟩, ()⟩, ⟨⟨100, 0⟩, ⟨100, 100⟩, ()⟩] =
    some g ∧ g.index g.maxX = 3 := ⟨⟨0, 100, 5⟩, by decide, by decide⟩

end IOverlay
