import Verif.Go.Binary64

/-!
# 53 bits without limits on the exponent

The arithmetic of `float64` with its rounding, signed zeros, infinities and NaN, but without overflow and underflow of
finite results. It is what float64 computes as long as no result leaves the normal range (Props/Units53.lean,
`C124_agrees`). Numbers put in need not have 53 bits.
-/

namespace Verif

/-- Rounding of a non-negative rational to 53 bits, ties to even. -/
def round53 (q : ℚ) : ℚ := if q ≤ 0 then 0 else (halfEven (q / pow2 (binade q - 52)) : ℚ) * pow2 (binade q - 52)

/-- A number of this arithmetic: a sign and a magnitude, an infinity, or NaN. -/
inductive F53 where
  | nan
  | inf (neg : Bool)
  | fin (neg : Bool) (q : ℚ)
  deriving DecidableEq

namespace F53

/-- The number with the given sign and the given exact magnitude, rounded. -/
def ofMag (neg : Bool) (q : ℚ) : F53 := .fin neg (round53 q)

/-- An exact number, rounded; `z` is the sign of the result if the number is 0. -/
def ofRat (z : Bool) (q : ℚ) : F53 := if q = 0 then .fin z 0 else ofMag (decide (q < 0)) |q|

/-- Negation flips the sign. -/
def neg : F53 → F53
  | .nan => .nan
  | .inf s => .inf (!s)
  | .fin s q => .fin (!s) q

/-- `a + b`. -/
def add : F53 → F53 → F53
  | .nan, _ => .nan
  | _, .nan => .nan
  | .inf s, .inf t => if s = t then .inf s else .nan
  | .inf s, _ => .inf s
  | _, .inf t => .inf t
  | .fin s p, .fin t q => ofRat (s && t) (B64.signed s p + B64.signed t q)

/-- `a * b`. -/
def mul : F53 → F53 → F53
  | .nan, _ => .nan
  | _, .nan => .nan
  | .inf s, .inf t => .inf (s ^^ t)
  | .inf s, .fin t q => if q = 0 then .nan else .inf (s ^^ t)
  | .fin s p, .inf t => if p = 0 then .nan else .inf (s ^^ t)
  | .fin s p, .fin t q => ofMag (s ^^ t) (p * q)

/-- `a / b`. -/
def div : F53 → F53 → F53
  | .nan, _ => .nan
  | _, .nan => .nan
  | .inf _, .inf _ => .nan
  | .inf s, .fin t _ => .inf (s ^^ t)
  | .fin s _, .inf t => .fin (s ^^ t) 0
  | .fin s p, .fin t q => if q = 0 then (if p = 0 then .nan else .inf (s ^^ t)) else ofMag (s ^^ t) (p / q)

/-- The extended number it stands for. -/
def val : F53 → XF ℚ
  | .nan => .nan
  | .inf s => if s then .ninf else .pinf
  | .fin s q => .fin (B64.signed s q)

/-- The sign bit. -/
def signbit : F53 → Bool
  | .nan => false
  | .inf s => s
  | .fin s _ => s

/-- `math.Max`. -/
def max (x y : F53) : F53 :=
  if x.val = .pinf ∨ y.val = .pinf then .inf false
  else if x.val = .nan ∨ y.val = .nan then .nan
  else if x.val = .fin 0 ∧ y.val = .fin 0 then (if x.signbit then y else x)
  else if XF.lt y.val x.val then x else y

/-- `math.Min`. -/
def min (x y : F53) : F53 :=
  if x.val = .ninf ∨ y.val = .ninf then .inf true
  else if x.val = .nan ∨ y.val = .nan then .nan
  else if x.val = .fin 0 ∧ y.val = .fin 0 then (if x.signbit then x else y)
  else if XF.lt x.val y.val then x else y

instance : GoFloat F53 where
  add := add
  sub a b := add a (neg b)
  mul := mul
  div := div
  lt a b := XF.lt a.val b.val
  le a b := XF.lt a.val b.val || XF.eq a.val b.val
  eq a b := XF.eq a.val b.val
  ofInt n := ofRat false n
  lit q := ofRat false q
  isNaN x := match x with | .nan => true | _ => false
  isPosInf x := match x with | .inf false => true | _ => false
  isNegInf x := match x with | .inf true => true | _ => false
  abs x := match x with | .nan => .nan | .inf _ => .inf false | .fin _ q => .fin false q
  max := max
  min := min

/-- A float64 in this arithmetic. -/
def of : B64 → F53
  | .nan => .nan
  | .inf s => .inf s
  | .fin s q _ => .fin s q

/-- Multiplication by `2^k`, the special values left alone. -/
def shift (k : ℤ) : F53 → F53
  | .fin s q => .fin s (2 ^ k * q)
  | a => a

end F53

/-! ## Rounding and powers of two -/

theorem binade_unique {q : ℚ} {k : ℤ} (h1 : (2 : ℚ) ^ k ≤ q) (h2 : q < 2 ^ (k + 1)) : binade q = k := by
  have hq : 0 < q := (zpow_pos (by norm_num) k).trans_le h1
  obtain ⟨h3, h4⟩ := binade_spec hq
  rw [pow2_eq] at h3 h4
  have a := (zpow_lt_zpow_iff_right₀ (by norm_num : (1 : ℚ) < 2)).mp (h1.trans_lt h4)
  have b := (zpow_lt_zpow_iff_right₀ (by norm_num : (1 : ℚ) < 2)).mp (h3.trans_lt h2)
  omega

theorem binade_shift (k : ℤ) {q : ℚ} (h : 0 < q) : binade (2 ^ k * q) = binade q + k := by
  obtain ⟨h1, h2⟩ := binade_spec h
  rw [pow2_eq] at h1 h2
  have hp : (0 : ℚ) < 2 ^ k := zpow_pos (by norm_num) k
  refine binade_unique ?_ ?_
  · rw [add_comm, zpow_add₀ (by norm_num)]
    exact mul_le_mul_of_nonneg_left h1 hp.le
  · rw [show binade q + k + 1 = k + (binade q + 1) by ring, zpow_add₀ (by norm_num)]
    exact mul_lt_mul_of_pos_left h2 hp

/-- Rounding to 53 bits commutes with powers of two. -/
theorem round53_shift (k : ℤ) (q : ℚ) : round53 (2 ^ k * q) = 2 ^ k * round53 q := by
  have hp : (0 : ℚ) < 2 ^ k := zpow_pos (by norm_num) k
  rcases le_or_gt q 0 with h | h
  · rw [round53, if_pos (mul_nonpos_of_nonneg_of_nonpos hp.le h), round53, if_pos h, mul_zero]
  · rw [round53, if_neg (not_le.mpr (mul_pos hp h)), round53, if_neg (not_le.mpr h), binade_shift k h, pow2_eq, pow2_eq,
      show binade q + k - 52 = k + (binade q - 52) by ring, zpow_add₀ (by norm_num), mul_div_mul_left _ _ hp.ne']
    ring

/-- In the normal range rounding to 53 bits is rounding to binary64. -/
theorem round53_normal {q : ℚ} (h : (2 : ℚ) ^ (-1022 : ℤ) ≤ q) : round53 q = roundMag q := by
  have hq : 0 < q := (zpow_pos (by norm_num) _).trans_le h
  have hb : -1022 ≤ binade q := by
    have h2 := (binade_spec hq).2
    rw [pow2_eq] at h2
    have := (zpow_lt_zpow_iff_right₀ (by norm_num : (1 : ℚ) < 2)).mp (h.trans_lt h2)
    omega
  rw [round53, roundMag, unitExp, max_eq_left (by omega)]

/-- Below the normal range multiples of the smallest number have fewer than 53 bits. -/
theorem round53_small {n : ℕ} (h : (n : ℚ) * 2 ^ (-1074 : ℤ) < 2 ^ (-1022 : ℤ)) :
    round53 (n * 2 ^ (-1074 : ℤ)) = n * 2 ^ (-1074 : ℤ) ∧ roundMag (n * 2 ^ (-1074 : ℤ)) = n * 2 ^ (-1074 : ℤ) := by
  have hp : (0 : ℚ) < 2 ^ (-1074 : ℤ) := zpow_pos (by norm_num) _
  have hn : n < 2 ^ 52 := by
    rw [show (-1022 : ℤ) = 52 + -1074 by norm_num, zpow_add₀ (by norm_num)] at h
    have := lt_of_mul_lt_mul_right h hp.le
    exact_mod_cast this
  constructor
  · rcases Nat.eq_zero_or_pos n with rfl | h0
    · simp [round53]
    have hpos : (0 : ℚ) < n * 2 ^ (-1074 : ℤ) := mul_pos (by exact_mod_cast h0) hp
    have hb : binade (n * 2 ^ (-1074 : ℤ)) ≤ -1023 := by
      have h1 := (binade_spec hpos).1
      rw [pow2_eq] at h1
      have := (zpow_lt_zpow_iff_right₀ (by norm_num : (1 : ℚ) < 2)).mp (h1.trans_lt h)
      omega
    rw [round53, if_neg (not_le.mpr hpos), pow2_eq]
    generalize binade (n * 2 ^ (-1074 : ℤ)) = b at hb
    obtain ⟨m, hm, -⟩ := div_pow2 (show b - 52 ≤ -1074 by omega)
    have hb0 : (0 : ℚ) < 2 ^ (b - 52) := zpow_pos (by norm_num) _
    have e : (n : ℚ) * 2 ^ (-1074 : ℤ) / 2 ^ (b - 52) = ((n * m : ℕ) : ℤ) := by
      rw [mul_div_assoc, hm]; push_cast; ring
    rw [e, halfEven_int, ← e, div_mul_cancel₀ _ hb0.ne']
  · exact roundMag_rep (rep_scaled (by omega) le_rfl (by norm_num))

end Verif
