import Verif.Go.Num
import Mathlib.Analysis.SpecialFunctions.Pow.Real
import Mathlib.Analysis.SpecialFunctions.Trigonometric.Arctan

/-!
# Package `math` over exact real numbers

The functions documented at https://pkg.go.dev/math, without rounding. The special cases follow the
Go documentation.
-/

namespace Verif.XF
open GoFloat

/-- `math.Sqrt`: NaN below zero. -/
noncomputable def sqrtR : XF ℝ → XF ℝ
  | fin a => if a < 0 then nan else fin (Real.sqrt a)
  | pinf => pinf
  | _ => nan

/-- `math.Atan`. -/
noncomputable def atanR : XF ℝ → XF ℝ
  | fin a => fin (Real.arctan a)
  | pinf => fin (Real.pi / 2)
  | ninf => fin (-(Real.pi / 2))
  | nan => nan

open Classical in
/-- `math.Pow`. Simplification: there is one zero, so `Pow(±0, y)` is `+Inf` for every `y < 0`. -/
noncomputable def powR (x y : XF ℝ) : XF ℝ :=
  if y = fin 0 ∨ x = fin 1 then fin 1 else
  match x, y with
  | nan, _ => nan
  | _, nan => nan
  | fin a, fin b =>
    if a = 0 then (if b < 0 then pinf else fin 0)
    else if a < 0 ∧ ¬ ∃ n : ℤ, b = n then nan
    else fin (a ^ b)
  | fin a, pinf => if |a| = 1 then fin 1 else if 1 < |a| then pinf else fin 0
  | fin a, ninf => if |a| = 1 then fin 1 else if 1 < |a| then fin 0 else pinf
  | pinf, fin b => if 0 < b then pinf else fin 0
  | ninf, fin b => if 0 < b then (if ∃ n : ℤ, b = 2 * n + 1 then ninf else pinf) else fin 0
  | _, pinf => pinf
  | _, ninf => fin 0

/-- `math.Round`: half away from zero. -/
noncomputable def roundR : XF ℝ → XF ℝ
  | fin a => if a < 0 then fin (-(⌊-a + 1 / 2⌋ : ℤ)) else fin (⌊a + 1 / 2⌋ : ℤ)
  | x => x

noncomputable instance : GoMath (XF ℝ) where
  sqrt := sqrtR
  atan := atanR
  pow := powR
  round := roundR
  degPerRad := fin (180 / Real.pi)

theorem sqrt_fin {a : ℝ} (h : 0 ≤ a) : GoMath.sqrt (fin a) = fin (Real.sqrt a) := by
  show (if a < 0 then nan else fin (Real.sqrt a)) = _
  rw [if_neg (not_lt.mpr h)]

theorem sqrt_neg {a : ℝ} (h : a < 0) : GoMath.sqrt (fin a) = (nan : XF ℝ) := by
  show (if a < 0 then nan else fin (Real.sqrt a)) = _
  rw [if_pos h]

theorem atan_fin (a : ℝ) : GoMath.atan (fin a) = fin (Real.arctan a) := rfl

theorem degPerRad_eq : (GoMath.degPerRad : XF ℝ) = fin (180 / Real.pi) := rfl

theorem pow_two_fin (a : ℝ) : GoMath.pow (fin a) (fin 2) = fin (a * a) := by
  show powR _ _ = _
  unfold powR
  by_cases h1 : a = 1
  · simp [h1]
  · rw [if_neg (by simp [h1])]
    by_cases h0 : a = 0
    · simp [h0]
    · simp only [h0, if_false]
      rw [if_neg (by rintro ⟨_, h⟩; exact h ⟨2, by norm_num⟩)]
      congr 1
      have := Real.rpow_natCast a 2
      rw [show ((2 : ℕ) : ℝ) = 2 by norm_num] at this
      rw [this]; ring

end Verif.XF
