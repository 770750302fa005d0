import Verif.Go.Binary64

/-!
# The float64 model against IEEE 754

`Binary64.lean` computes with rationals and rounds. The theorems here say that what it computes is what the standard asks
for: the nearest representable number, of two nearest ones the one with an even last digit; overflow exactly from half a
unit above the greatest number on; the rules for signed zeros and infinities. They are part of the trusted base only in
so far as their statements are the standard.
-/

namespace Verif

/-- Of two nearest multiples of the unit rounding takes the even one. -/
theorem roundMag_even {q : ℚ} (hq : 0 < q) {n : ℤ} (hn : roundMag q ≠ n * 2 ^ unitExp q)
    (hd : |n * 2 ^ unitExp q - q| = |roundMag q - q|) : ∃ m : ℤ, roundMag q = 2 * m * 2 ^ unitExp q := by
  have hp : (0 : ℚ) < 2 ^ unitExp q := zpow_pos (by norm_num) _
  rw [roundMag, if_neg (not_le.mpr hq), pow2_eq] at *
  obtain ⟨t, ht⟩ : ∃ t, t = q / 2 ^ unitExp q := ⟨_, rfl⟩
  have hqt : q = t * 2 ^ unitExp q := by rw [ht, div_mul_cancel₀ _ hp.ne']
  rw [← ht] at hn hd ⊢
  have hne : halfEven t ≠ n := fun h => hn (by rw [h])
  have hd' : |(n : ℚ) - t| = |(halfEven t : ℚ) - t| := by
    have e : ∀ z : ℚ, |z * 2 ^ unitExp q - q| = |z - t| * 2 ^ unitExp q := by
      intro z
      rw [show z * 2 ^ unitExp q - q = (z - t) * 2 ^ unitExp q by rw [sub_mul, ← hqt], abs_mul, abs_of_pos hp]
    rw [e, e] at hd
    exact mul_right_cancel₀ hp.ne' hd
  have h1 := Int.floor_le t
  have h2 := Int.lt_floor_add_one t
  suffices h : ∃ m : ℤ, halfEven t = 2 * m by
    obtain ⟨m, hm⟩ := h
    exact ⟨m, by rw [hm]; push_cast; ring⟩
  have hhalf := abs_halfEven_sub_half t
  have key : t - ⌊t⌋ = 1 / 2 := by
    rcases (abs_eq_abs).mp hd' with h | h
    · exact absurd (by have : (n : ℚ) = halfEven t := by linarith
                       exact_mod_cast this.symm) hne
    · have hs : (n : ℚ) + halfEven t = 2 * t := by linarith
      obtain ⟨a, b⟩ := abs_le.mp hhalf
      obtain ⟨h3, h4⟩ := halfEven_floor t
      rcases (show halfEven t = ⌊t⌋ ∨ halfEven t = ⌊t⌋ + 1 by omega) with h5 | h5
      · rw [h5] at hs a b
        have : ⌊t⌋ < n := by
          refine lt_of_le_of_ne ?_ (fun h => hne (by rw [h5, h]))
          have : (⌊t⌋ : ℚ) ≤ n := by linarith
          exact_mod_cast this
        have : ((⌊t⌋ + 1 : ℤ) : ℚ) ≤ n := Int.cast_le.mpr this
        push_cast at this
        linarith
      · rw [h5] at hs a b
        push_cast at hs a b
        have : n < ⌊t⌋ + 1 := by
          refine lt_of_le_of_ne ?_ (fun h => hne (by rw [h5, h]))
          have : (n : ℚ) ≤ ((⌊t⌋ + 1 : ℤ) : ℚ) := by push_cast; linarith
          exact_mod_cast this
        have : (n : ℚ) ≤ ⌊t⌋ := Int.cast_le.mpr (by omega)
        linarith
  simp only [halfEven, key, lt_irrefl, if_false]
  split
  · exact ⟨⌊t⌋ / 2, by omega⟩
  · exact ⟨(⌊t⌋ + 1) / 2, by omega⟩

/-- `1 + 3/2^53` lies half way between `1 + 2/2^53` and `1 + 4/2^53`. -/
example : ∃ m : ℤ, roundMag (1 + 3 / 2 ^ 53) = 2 * m * 2 ^ unitExp (1 + 3 / 2 ^ 53) :=
  roundMag_even (n := 2 ^ 52 + 1) (by norm_num) (by decide +kernel) (by decide +kernel)

theorem roundMag_tooBig : roundMag ((2 ^ 54 - 1) * 2 ^ 970) = 2 ^ 1024 := by decide +kernel

theorem maxFinite_eq : maxFinite = (2 ^ 53 - 1) * 2 ^ 971 := by decide +kernel

theorem overflow_aux {q D : ℚ} {k : ℤ} (hD : 0 < D) (h1 : (2 ^ 53 - 1) * (2 * D) < q) (h : q < (2 ^ 54 - 1) * D)
    (hn : |k * (2 * D) - q| ≤ |(2 ^ 53 - 1) * (2 * D) - q|) : k * (2 * D) ≤ (2 ^ 53 - 1) * (2 * D) := by
  by_contra hc
  rw [not_le] at hc
  have hk : ((2 ^ 53 - 1 : ℤ) : ℚ) < k := by
    have := lt_of_mul_lt_mul_right hc (by linarith)
    push_cast
    linarith
  have hk' : 2 ^ 53 - 1 < k := Int.cast_lt.mp hk
  have hk2 : ((2 ^ 53 : ℤ) : ℚ) ≤ k := Int.cast_le.mpr (by omega)
  push_cast at hk2
  rw [abs_of_nonpos (by linarith : (2 ^ 53 - 1) * (2 * D) - q ≤ 0)] at hn
  have := le_abs_self ((k : ℚ) * (2 * D) - q)
  nlinarith

/-- Numbers round to a finite float64 exactly if they are less than half a unit above the greatest one. -/
theorem roundMag_overflow {q : ℚ} (hq : 0 ≤ q) : roundMag q ≤ maxFinite ↔ q < (2 ^ 54 - 1) * 2 ^ 970 := by
  constructor
  · intro h
    by_contra hc
    have h1 := roundMag_mono (not_lt.mp hc)
    rw [roundMag_tooBig] at h1
    have h2 : ¬ ((2 : ℚ) ^ 1024 ≤ maxFinite) := by decide +kernel
    exact h2 (h1.trans h)
  · intro h
    have hmax : Rep maxFinite := ⟨⟨2 ^ 53 - 1, 971, by norm_num, by norm_num, by
      rw [maxFinite_eq, ← zpow_natCast 2 971]
      generalize (2 : ℚ) ^ ((971 : ℕ) : ℤ) = D
      norm_num⟩, le_rfl⟩
    rcases le_or_gt q maxFinite with h1 | h1
    · exact (roundMag_mono h1).trans (roundMag_rep hmax).le
    have hpos : 0 < q := lt_of_le_of_lt hmax.nonneg h1
    have hn := roundMag_nearest hq hmax
    have hb := binade_spec hpos
    rw [pow2_eq, pow2_eq] at hb
    have hb1 : 1023 ≤ binade q := by
      by_contra hc
      have h2 : (2 : ℚ) ^ (binade q + 1) ≤ 2 ^ (1023 : ℤ) := zpow_le_zpow_right₀ (by norm_num) (by omega)
      have h3 : (2 : ℚ) ^ (1023 : ℤ) ≤ maxFinite := by decide +kernel
      exact absurd (h1.trans hb.2) (not_lt.mpr (h2.trans h3))
    have hb2 : binade q ≤ 1023 := by
      by_contra hc
      have h2 : (2 : ℚ) ^ (1024 : ℤ) ≤ 2 ^ binade q := zpow_le_zpow_right₀ (by norm_num) (by omega)
      have h3 : ((2 : ℚ) ^ 54 - 1) * 2 ^ 970 ≤ 2 ^ (1024 : ℤ) := by decide +kernel
      exact absurd (h.trans_le h3) (not_lt.mpr (h2.trans hb.1))
    have hu : unitExp q = (971 : ℕ) := by rw [unitExp, le_antisymm hb2 hb1]; rfl
    have hr : roundMag q = (halfEven (q / pow2 (unitExp q)) : ℚ) * 2 ^ 971 := by
      rw [roundMag, if_neg (not_le.mpr hpos), pow2_eq, hu, zpow_natCast]
    have e970 : (2 : ℚ) ^ 971 = 2 * 2 ^ 970 := by rw [← pow_succ']
    rw [hr, maxFinite_eq, e970] at hn
    rw [maxFinite_eq, e970] at h1
    rw [hr, maxFinite_eq, e970]
    exact overflow_aux (pow_pos (by norm_num) 970) h1 h hn

namespace B64

/-- The sum of two finite numbers is negative zero only if both are; in particular `x - x` is `+0`. -/
theorem add_zero_sign {s t : Bool} {p q : ℚ} {hp : Rep p} {hq : Rep q} (h : signed s p + signed t q = 0) :
    B64.add (.fin s p hp) (.fin t q hq) = .fin (s && t) 0 rep_zero := by
  rw [add, ofRat, if_pos h]

end B64
end Verif
