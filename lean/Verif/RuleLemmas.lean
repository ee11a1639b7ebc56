/- Lemmas about filters and strategies. -/
import Verif.Rules

namespace IOverlay

/-- A fill mask from the four in/out flags. -/
def mkFill (st sb ct cb : Bool) : Fill :=
  b8 st ||| (b8 sb <<< 1) ||| (b8 ct <<< 2) ||| (b8 cb <<< 3)

theorem isIncluded_mkFill (r : OverlayRule) (st sb ct cb : Bool) :
    isIncluded r (mkFill st sb ct cb) = (r.op st ct != r.op sb cb) := by
  revert st sb ct cb; cases r <;> decide

theorem isFillTop_mkFill (r : OverlayRule) (st sb ct cb : Bool) (h : r.op st ct ≠ r.op sb cb) :
    isFillTop r (mkFill st sb ct cb) = r.op st ct := by
  revert st sb ct cb; cases r <;> decide

theorem fillBit_eq (r : FillRule) (w : Int) : fillBit r w = b8 (r.inside w) := by
  cases r
  · simp only [fillBit, FillRule.inside, b8]
    apply BitVec.eq_of_toNat_eq
    rw [BitVec.toNat_and, BitVec.toNat_ofInt]
    have h : ∀ n : Nat, (1#8).toNat &&& n = n % 2 := by
      intro n; simp [Nat.one_and_eq_mod_two]
    rw [h]
    have hw : ((w % ((2:Nat)^8 : Nat)).toNat : Int) = w % 256 := by
      rw [Int.toNat_of_nonneg (Int.emod_nonneg _ (by norm_num))]; norm_num
    by_cases h1 : w % 2 = 1
    · simp only [h1, beq_self_eq_true, if_true]
      have : (w % ((2:Nat)^8 : Nat)).toNat % 2 = 1 := by omega
      rw [this]; rfl
    · have : (w % ((2:Nat)^8 : Nat)).toNat % 2 = 0 := by omega
      have h2 : (w % 2 == 1) = false := by simpa using h1
      rw [this]; simp only [h2]; rfl
  all_goals rfl

theorem addAndFillBool_eq (r : FillRule) (this bot : CountBool) :
    addAndFillBool r this bot =
      (⟨bot.subj + this.subj, bot.clip + this.clip⟩,
        mkFill (r.inside (bot.subj + this.subj)) (r.inside bot.subj)
          (r.inside (bot.clip + this.clip)) (r.inside bot.clip)) := by
  simp only [addAndFillBool, fillBit_eq, mkFill, WindingCount.add]

theorem addAndFillStr_eq (r : FillRule) (this bot : CountStr) :
    addAndFillStr r this bot =
      (⟨bot.subj + this.subj, false, false⟩,
        mkFill (r.inside (bot.subj + this.subj)) (r.inside bot.subj) this.back this.fwd) := by
  simp only [addAndFillStr, fillBit_eq, mkFill, clipMask]
  congr 1
  generalize FillRule.inside r (bot.subj + this.subj) = x
  generalize FillRule.inside r bot.subj = y
  generalize this.back = z
  generalize this.fwd = w
  revert x y z w; decide

end IOverlay
