import Verif.Go.Basic
import Verif.Go.Binary64

/-!
# Decimal rounding of float64 (`utils/commonutils/common.go`)
-/

namespace Verif

theorem roundS_flip (q : ℚ) : roundS (-q) = -roundS q := by
  rcases lt_trichotomy q 0 with h | rfl | h
  · rw [roundS, if_neg (by linarith), roundS, if_pos h, neg_neg]
  · rw [neg_zero, roundS_rep srep_zero, neg_zero]
  · rw [roundS, if_pos (by linarith), roundS, if_neg (by linarith), neg_neg]

theorem round64_value {q b : ℚ} (h : round64 q = .fin b) : roundS q = b ∧ |b| ≤ maxFinite := by
  rw [round64] at h
  split at h
  · rename_i h1
    rw [XF.fin_inj] at h
    exact ⟨h, h ▸ h1⟩
  · split at h <;> cases h

/-- Rounding a number that is not too small errs by at most `2^-53` of it. -/
theorem roundS_relative {q : ℚ} (h : (2 : ℚ) ^ (-1021 : ℤ) ≤ |q|) : |roundS q - q| ≤ |q| / 2 ^ 53 := by
  have h0 : 0 < |q| := (zpow_pos (by norm_num) _).trans_le h
  obtain ⟨b1, b2⟩ := binade_spec h0
  rw [pow2_eq] at b1 b2
  have hk : -1021 ≤ binade |q| + 1 := by
    have := (zpow_lt_zpow_iff_right₀ (by norm_num : (1 : ℚ) < 2)).mp (h.trans_lt b2)
    omega
  refine (roundS_error hk b2.le).trans ?_
  rw [show binade |q| + 1 - 54 = binade |q| + (-53) by ring, zpow_add₀ (by norm_num)]
  have h4 : (2 : ℚ) ^ (-53 : ℤ) = 1 / 2 ^ 53 := by norm_num
  rw [h4]
  have : (2 : ℚ) ^ binade |q| * (1 / 2 ^ 53) ≤ |q| * (1 / 2 ^ 53) := mul_le_mul_of_nonneg_right b1 (by norm_num)
  refine this.trans (le_of_eq (by ring))

end Verif

namespace Verif.Commonutils
open Verif

/-- A magnitude rounded to a multiple of `10^exp`, halves up. -/
def toDecimal (exp : ℤ) (q : ℚ) : ℚ := (⌊q / 10 ^ exp + 1 / 2⌋ : ℤ) * 10 ^ exp

/-- /repo/utils/commonutils/common.go:51-54 `FormatDecimalFloat64`. `decimal.NewFromFloatWithExponent` (package
shopspring/decimal, not part of the repository) panics on NaN and infinities, and otherwise computes with big integers
the multiple of `10^exp` nearest to the exact value, halves away from zero. `Decimal.Float64` is the float64 nearest to
that decimal (of two, the even one), +0 for zero and an infinity beyond the range. Simplification: `exp` is an integer
of any size, not an int32. -/
def FormatDecimalFloat64 (value : B64) (exp : ℤ) : Go B64 :=
  match value with
  | .fin s q _ => .ok (B64.ofRat false (B64.signed s (toDecimal exp q)))
  | _ => .error (.explicit "Cannot create a Decimal from NaN or an infinity")

end Verif.Commonutils
