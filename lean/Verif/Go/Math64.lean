import Verif.Go.Binary64
import Mathlib.Analysis.SpecialFunctions.Pow.NNReal

/-!
# Package `math` on binary64

`math.Sqrt` is correctly rounded (IEEE 754 requires it, and Go documents the hardware instruction or an equivalent);
here it is computed with integers. `math.Round` is exact. For `math.Atan` and `math.Pow` the documentation promises
no accuracy: they stay parameters (`MathLib`), and a theorem that needs something about them says so in a hypothesis.
-/

namespace Verif
open GoFloat

/-- Square root of `n`, the remaining `k` bits, given the bits `r` found so far. -/
def isqrtFrom (n : ℕ) : ℕ → ℕ → ℕ
  | 0, r => r
  | k + 1, r => isqrtFrom n k (if (r + 2 ^ k) * (r + 2 ^ k) ≤ n then r + 2 ^ k else r)

/-- The square root of `n`, rounded down. -/
def isqrt (n : ℕ) : ℕ := isqrtFrom n (n.log2 / 2 + 1) 0

theorem isqrtFrom_spec (n k r : ℕ) (h1 : r * r ≤ n) (h2 : n < (r + 2 ^ k) * (r + 2 ^ k)) :
    isqrtFrom n k r * isqrtFrom n k r ≤ n ∧ n < (isqrtFrom n k r + 1) * (isqrtFrom n k r + 1) := by
  induction k generalizing r with
  | zero => exact ⟨h1, by simpa [isqrtFrom] using h2⟩
  | succ k ih =>
    rw [isqrtFrom]
    split
    · next h => exact ih _ h (by rw [add_assoc, ← two_mul, ← pow_succ']; exact h2)
    · next h => exact ih _ h1 (not_le.mp h)

theorem isqrt_spec (n : ℕ) : isqrt n * isqrt n ≤ n ∧ n < (isqrt n + 1) * (isqrt n + 1) := by
  refine isqrtFrom_spec n _ 0 (Nat.zero_le _) ?_
  rw [zero_add, ← pow_add]
  exact Nat.lt_log2_self.trans_le (Nat.pow_le_pow_right (by norm_num) (by omega))

/-- A number on the same side of every integer as the square root of `n`. -/
def rootInt (n : ℕ) : ℚ := if isqrt n * isqrt n = n then (isqrt n : ℚ) else isqrt n + 1 / 2

theorem le_rootInt (n g : ℕ) : (g : ℚ) ≤ rootInt n ↔ g * g ≤ n := by
  obtain ⟨h1, h2⟩ := isqrt_spec n
  have key : (g : ℚ) ≤ rootInt n ↔ g ≤ isqrt n := by
    rw [rootInt]
    split
    · exact Nat.cast_le
    · constructor
      · intro h
        by_contra hg
        have : ((isqrt n + 1 : ℕ) : ℚ) ≤ g := by exact_mod_cast not_le.mp hg
        push_cast at this
        linarith
      · intro h
        have : (g : ℚ) ≤ isqrt n := by exact_mod_cast h
        linarith
  rw [key]
  constructor
  · intro h; exact (Nat.mul_self_le_mul_self h).trans h1
  · intro h; exact Nat.lt_succ_iff.mp (Nat.mul_self_lt_mul_self_iff.mp (h.trans_lt h2))

theorem rootInt_le (n g : ℕ) : rootInt n ≤ g ↔ n ≤ g * g := by
  obtain ⟨h1, h2⟩ := isqrt_spec n
  rw [rootInt]
  split
  · next he =>
    rw [Nat.cast_le]
    constructor
    · intro h; rw [← he]; exact Nat.mul_self_le_mul_self h
    · intro h; rw [← he] at h; exact Nat.mul_self_le_mul_self_iff.mp h
  · next he =>
    constructor
    · intro h
      have : isqrt n + 1 ≤ g := by
        by_contra hg
        have : (g : ℚ) ≤ isqrt n := by exact_mod_cast (by omega : g ≤ isqrt n)
        linarith
      exact h2.le.trans (Nat.mul_self_le_mul_self this)
    · intro h
      have : isqrt n + 1 ≤ g := by
        by_contra hg
        have hg' := Nat.mul_self_le_mul_self (show g ≤ isqrt n by omega)
        omega
      have : ((isqrt n + 1 : ℕ) : ℚ) ≤ g := by exact_mod_cast this
      push_cast at this
      linarith

/-- A rational that lies on the same side as `√q` of every multiple of `2^-1075`, for binary64 numbers `q`. -/
def rootMag (q : ℚ) : ℚ := rootInt (q * 4 ^ 1075).num.toNat / 2 ^ 1075

theorem rootMag_aux {q : ℚ} (h : Rep q) : ∃ n : ℕ, q * 4 ^ 1075 = n ∧ rootMag q = rootInt n / 2 ^ 1075 := by
  obtain ⟨m, hm⟩ := h.multiple
  have : q * 4 ^ 1075 = ((m * 2 ^ 1076 : ℕ) : ℚ) := by
    rw [hm, mul_assoc, Nat.cast_mul]
    congr 1
    rw [show (4 : ℚ) ^ 1075 = 2 ^ (2150 : ℤ) by
      rw [show (4 : ℚ) = 2 ^ 2 by norm_num, ← pow_mul, ← zpow_natCast]; rfl, ← zpow_add₀ (by norm_num),
      show (-1074 + 2150 : ℤ) = ((1076 : ℕ) : ℤ) by norm_num, zpow_natCast, Nat.cast_pow, Nat.cast_ofNat]
  exact ⟨_, this, by rw [rootMag, this, Rat.num_natCast, Int.toNat_natCast]⟩

theorem le_rootMag {q : ℚ} (h : Rep q) (g : ℕ) : (g : ℚ) / 2 ^ 1075 ≤ rootMag q ↔ ((g : ℚ) / 2 ^ 1075) ^ 2 ≤ q := by
  obtain ⟨n, hn, hr⟩ := rootMag_aux h
  have hq : q = n / 4 ^ 1075 := by rw [← hn, mul_div_assoc, div_self (pow_ne_zero _ (by norm_num)), mul_one]
  have hD : (4 : ℚ) ^ 1075 = (2 ^ 1075) ^ 2 := by rw [← pow_mul, mul_comm, pow_mul]; norm_num
  rw [hr, hq, hD]
  have hpos : (0 : ℚ) < 2 ^ 1075 := pow_pos (by norm_num) _
  generalize (2 : ℚ) ^ 1075 = D at *
  rw [div_le_div_iff_of_pos_right hpos, le_rootInt, div_pow, div_le_div_iff_of_pos_right (pow_pos hpos 2), sq]
  exact_mod_cast Iff.rfl

theorem rootMag_le {q : ℚ} (h : Rep q) (g : ℕ) : rootMag q ≤ (g : ℚ) / 2 ^ 1075 ↔ q ≤ ((g : ℚ) / 2 ^ 1075) ^ 2 := by
  obtain ⟨n, hn, hr⟩ := rootMag_aux h
  have hq : q = n / 4 ^ 1075 := by rw [← hn, mul_div_assoc, div_self (pow_ne_zero _ (by norm_num)), mul_one]
  have hD : (4 : ℚ) ^ 1075 = (2 ^ 1075) ^ 2 := by rw [← pow_mul, mul_comm, pow_mul]; norm_num
  rw [hr, hq, hD]
  have hpos : (0 : ℚ) < 2 ^ 1075 := pow_pos (by norm_num) _
  generalize (2 : ℚ) ^ 1075 = D at *
  rw [div_le_div_iff_of_pos_right hpos, rootInt_le, div_pow, div_le_div_iff_of_pos_right (pow_pos hpos 2), sq]
  exact_mod_cast Iff.rfl

/-- Midpoints of representable numbers are multiples of `2^-1075`. -/
theorem Rep.mid {a b : ℚ} (ha : Rep a) (hb : Rep b) : ∃ g : ℕ, (a + b) / 2 = g / 2 ^ 1075 := by
  obtain ⟨m, rfl⟩ := ha.multiple
  obtain ⟨n, rfl⟩ := hb.multiple
  refine ⟨m + n, ?_⟩
  have e : (2 : ℚ) ^ (-1074 : ℤ) = 2 / 2 ^ 1075 := by
    rw [zpow_neg, show ((1074 : ℤ)) = ((1074 : ℕ) : ℤ) from rfl, zpow_natCast, pow_succ (2 : ℚ) 1074]
    have : (2 : ℚ) ^ 1074 ≠ 0 := pow_ne_zero _ (by norm_num)
    generalize (2 : ℚ) ^ 1074 = D at *
    field_simp
  rw [e, Nat.cast_add]
  generalize (2 : ℚ) ^ 1075 = D
  ring

/-- The float64 square root of a magnitude. -/
def sqrtMag (q : ℚ) : ℚ := roundMag (rootMag q)

theorem sqrtMag_ge {q a : ℚ} (h : Rep q) (ha : Rep a) (haq : a ^ 2 ≤ q) : a ≤ sqrtMag q := by
  obtain ⟨g, hg⟩ := ha.mid ha
  rw [add_self_div_two] at hg
  have : a ≤ rootMag q := by rw [hg, le_rootMag h, ← hg]; exact haq
  rw [← roundMag_rep ha]
  exact roundMag_mono this

theorem sqrtMag_le {q a : ℚ} (h : Rep q) (ha : Rep a) (haq : q ≤ a ^ 2) : sqrtMag q ≤ a := by
  obtain ⟨g, hg⟩ := ha.mid ha
  rw [add_self_div_two] at hg
  have : rootMag q ≤ a := by rw [hg, rootMag_le h, ← hg]; exact haq
  rw [← roundMag_rep ha]
  exact roundMag_mono this

theorem sqrtMag_rep {q : ℚ} (h : Rep q) : Rep (sqrtMag q) := by
  refine rep_roundMag ?_
  rcases le_total q 1 with h1 | h1
  · have hr : Rep 1 := by simpa using rep_nat (n := 1) (by norm_num)
    exact (sqrtMag_le h hr (by simpa using h1)).trans hr.2
  · exact (sqrtMag_le h h (by nlinarith)).trans h.2

theorem closer_iff {s t x : ℝ} (h : t < s) : |s - x| ≤ |t - x| ↔ (t + s) / 2 ≤ x := by
  rw [← sq_le_sq]
  constructor
  · intro h1
    by_contra h2
    nlinarith
  · intro h1
    nlinarith

/-- **`math.Sqrt` is correctly rounded**: no representable number is nearer to the true root. -/
theorem sqrtMag_nearest {q t : ℚ} (h : Rep q) (ht : Rep t) :
    |(sqrtMag q : ℝ) - Real.sqrt q| ≤ |(t : ℝ) - Real.sqrt q| := by
  have hs := sqrtMag_rep h
  have hq0 : (0 : ℝ) ≤ q := by exact_mod_cast h.nonneg
  have hroot : 0 ≤ rootMag q := by
    have := (le_rootMag h 0).mpr (by simpa using h.nonneg)
    simpa using this
  have hn := roundMag_nearest hroot ht
  rw [← sqrtMag] at hn
  have hn' : |(sqrtMag q : ℝ) - rootMag q| ≤ |(t : ℝ) - rootMag q| := by exact_mod_cast hn
  rcases lt_trichotomy t (sqrtMag q) with hlt | heq | hlt
  · have hlt' : (t : ℝ) < sqrtMag q := by exact_mod_cast hlt
    rw [closer_iff hlt'] at hn' ⊢
    obtain ⟨g, hg⟩ := ht.mid hs
    have : (t + sqrtMag q) / 2 ≤ rootMag q := by exact_mod_cast hn'
    rw [hg, le_rootMag h, ← hg] at this
    refine Real.le_sqrt_of_sq_le ?_
    exact_mod_cast this
  · rw [heq]
  · have hlt' : (sqrtMag q : ℝ) < t := by exact_mod_cast hlt
    have flip : ∀ x : ℝ, |(sqrtMag q : ℝ) - x| ≤ |(t : ℝ) - x| ↔ x ≤ (t + sqrtMag q) / 2 := by
      intro x
      rw [← sq_le_sq]
      constructor
      · intro h1
        by_contra h2
        nlinarith
      · intro h1
        nlinarith
    rw [flip] at hn' ⊢
    obtain ⟨g, hg⟩ := ht.mid hs
    have : rootMag q ≤ (t + sqrtMag q) / 2 := by exact_mod_cast hn'
    rw [hg, rootMag_le h, ← hg] at this
    have h0 : 0 ≤ (t + sqrtMag q) / 2 := by have := ht.nonneg; have := hs.nonneg; linarith
    rw [Real.sqrt_le_left (by exact_mod_cast h0)]
    exact_mod_cast this

namespace B64

/-- `math.Sqrt`: `Sqrt(±0) = ±0`, NaN below 0. -/
def sqrt : B64 → B64
  | .nan => .nan
  | .inf s => if s then .nan else .inf false
  | .fin s q _ => if q = 0 then .fin s 0 rep_zero else if s then .nan else ofMag false (rootMag q)

/-- `math.Round`: half away from zero; the sign is kept. -/
def round : B64 → B64
  | .fin s q _ => ofMag s (⌊q + 1 / 2⌋ : ℤ)
  | x => x

/-- The functions of package `math` about whose accuracy nothing is promised. -/
class MathLib where
  /-- `math.Atan` -/
  atan : B64 → B64
  /-- `math.Pow` -/
  pow : B64 → B64 → B64

/-- The constant `180.0 / math.Pi` with the digits of `math.Pi`, computed exactly by the compiler and rounded once. -/
def degPerRad : B64 := lit (180 / 3.14159265358979323846264338327950288419716939937510582097494459)

instance math64 [MathLib] : GoMath B64 where
  sqrt := sqrt
  atan := MathLib.atan
  pow := MathLib.pow
  round := round
  degPerRad := degPerRad

theorem val_sqrt {x : B64} {a : ℚ} (hx : x.val = .fin a) (h : 0 ≤ a) : x.sqrt.val = .fin (sqrtMag a) := by
  obtain ⟨s, q, hq, rfl, rfl⟩ := val_fin_iff.mp hx
  rw [sqrt]
  by_cases h0 : q = 0
  · subst h0
    rw [if_pos rfl]
    have e : signed s 0 = 0 := by cases s <;> simp [signed]
    show XF.fin (signed s 0) = _
    rw [e, sqrtMag]
    have : rootMag 0 = 0 := by
      have h1 := (le_rootMag rep_zero 0).mpr (by simp)
      have h2 := (rootMag_le rep_zero 0).mpr (by simp)
      simp only [Nat.cast_zero, zero_div] at h1 h2
      exact le_antisymm h2 h1
    rw [this, roundMag_zero]
  · have hqp : 0 < q := lt_of_le_of_ne hq.nonneg (Ne.symm h0)
    have hs : s = false := by
      cases s
      · rfl
      · simp only [signed, if_true] at h; linarith
    subst hs
    rw [if_neg h0]
    simp only [signed, Bool.false_eq_true, if_false]
    rw [ofMag, dif_pos (show roundMag (rootMag q) ≤ maxFinite from (sqrtMag_rep hq).2)]
    rfl

theorem val_sqrt_neg {x : B64} {a : ℚ} (hx : x.val = .fin a) (h : a < 0) : x.sqrt.val = .nan := by
  obtain ⟨s, q, hq, rfl, rfl⟩ := val_fin_iff.mp hx
  have h0 : q ≠ 0 := by
    rintro rfl
    cases s <;> simp [signed] at h
  have hs : s = true := by
    cases s
    · have := hq.nonneg
      simp only [signed, Bool.false_eq_true, if_false] at h; linarith
    · rfl
  subst hs
  rw [sqrt, if_neg h0]
  rfl

end B64

end Verif
