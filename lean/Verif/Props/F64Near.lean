import Verif.Props.F64Lines
import Mathlib.Algebra.Order.Archimedean.Basic

/-!
# How far an exponential average can leave the range of its data in float64 (C103)

Every interval can be widened to one whose ends have few enough bits for `C103_ema_range_partial`. The widening bounds the
error, whatever the number of candles.
-/

namespace Verif.Props
open Verif Verif.Klines Verif.Ta Verif.Ind GoFloat

/-- A power of two that is small against `M` and on whose multiples numbers up to `M` need few bits. -/
theorem exists_grid {p : Nat} (hp' : p + 1 ≤ 2 ^ 52) {M : ℚ} (hM : 0 ≤ M) (hM' : M ≤ 2 ^ (970 : ℤ)) :
    ∃ e : ℤ, -1074 ≤ e ∧ e ≤ 970 ∧ (2 : ℚ) ^ e ≤ M * (p + 1) / 2 ^ 51 + 2 ^ (-1074 : ℤ) ∧
      ∃ N : ℤ, 0 ≤ N ∧ (p + 1) * N ≤ 2 ^ 53 ∧ M ≤ N * 2 ^ e := by
  have hpp : (0 : ℚ) < p + 1 := Nat.cast_add_one_pos p
  obtain ⟨N, hN⟩ : ∃ N : ℤ, N = 2 ^ 53 / (p + 1) := ⟨_, rfl⟩
  have hq : (0 : ℤ) < (p : ℤ) + 1 := by omega
  have hN1 : ((p : ℤ) + 1) * N ≤ 2 ^ 53 := by rw [hN]; exact Int.mul_ediv_self_le hq.ne'
  have hN2 : (2 : ℤ) ^ 53 < (p + 1) * (N + 1) := by
    have := Int.lt_ediv_add_one_mul_self (2 ^ 53) hq
    rw [← hN] at this; linarith [mul_comm (N + 1) ((p : ℤ) + 1)]
  have hNpos : 1 ≤ N := by
    rw [hN, Int.le_ediv_iff_mul_le hq]; have : (p : ℤ) + 1 ≤ 2 ^ 52 := by exact_mod_cast hp'
    norm_num at this ⊢; omega
  have hN3 : (2 : ℚ) ^ 52 ≤ (p + 1) * N := by
    have h1 : (2 : ℤ) ^ 52 ≤ (p + 1) * N := by
      have : ((p : ℤ) + 1) * 1 ≤ (p + 1) * N := mul_le_mul_of_nonneg_left hNpos hq.le
      norm_num at hN2 this ⊢; linarith
    exact_mod_cast h1
  have hNq : (1 : ℚ) ≤ N := by exact_mod_cast hNpos
  rcases hM.eq_or_lt with rfl | hpos
  · refine ⟨-1074, le_rfl, by norm_num, by simp, N, by omega, hN1, by positivity⟩
  obtain ⟨n, hn1, hn2⟩ := exists_mem_Ioc_zpow (div_pos hpos (by linarith : (0 : ℚ) < N)) (by norm_num : (1 : ℚ) < 2)
  have hn3 : (2 : ℚ) ^ (n + 1) ≤ M * (p + 1) / 2 ^ 51 := by
    rw [zpow_add_one₀ (by norm_num), le_div_iff₀ (by positivity)]
    have h1 : (2 : ℚ) ^ n * N ≤ M := by rw [← le_div_iff₀ (by linarith)]; exact hn1.le
    have h2 : (2 : ℚ) ^ n * 2 ^ 52 ≤ (2 : ℚ) ^ n * ((p + 1) * N) := mul_le_mul_of_nonneg_left hN3 (by positivity)
    have h3 : (p + 1 : ℚ) * (2 ^ n * N) ≤ (p + 1) * M := mul_le_mul_of_nonneg_left h1 hpp.le
    calc (2 : ℚ) ^ n * 2 * 2 ^ 51 = (2 : ℚ) ^ n * 2 ^ 52 := by rw [mul_assoc]; norm_num
      _ ≤ (2 : ℚ) ^ n * ((p + 1) * N) := h2
      _ = (p + 1 : ℚ) * ((2 : ℚ) ^ n * N) := by ring
      _ ≤ (p + 1 : ℚ) * M := h3
      _ = M * (p + 1) := by ring
  have hn4 : n + 1 ≤ 970 := by
    by_contra h
    have h1 : (2 : ℚ) ^ (970 : ℤ) ≤ 2 ^ n := zpow_le_zpow_right₀ (by norm_num) (by omega)
    have h2 : M / N ≤ M := div_le_self hM hNq
    linarith
  have hs : M ≤ N * 2 ^ (n + 1) := by
    rw [div_le_iff₀ (by linarith)] at hn2; linarith
  rcases le_total (-1074) (n + 1) with h | h
  · exact ⟨n + 1, h, hn4, hn3.trans (le_add_of_nonneg_right (zpow_pos (by norm_num) _).le), N, by omega, hN1, hs⟩
  · refine ⟨-1074, le_rfl, by norm_num, le_add_of_nonneg_left (div_nonneg (mul_nonneg hM hpp.le) (by norm_num)), N, by omega, hN1, hs.trans ?_⟩
    exact mul_le_mul_of_nonneg_left (zpow_le_zpow_right₀ (by norm_num) h) (by linarith)

/-- **C103 (Ema, any data).** With float64 rounding the exponential average of numbers between `a` and `b`, of size at most
`M`, leaves that range by at most `M (p + 1) 2^-51` (and the smallest float64 number), however many numbers there are. -/
theorem C103_ema_near {p : Nat} (hp : 1 ≤ p) (hp' : p + 1 ≤ 2 ^ 52) {a b M : ℚ} (ha : |a| ≤ M) (hb : |b| ≤ M)
    (hM : M ≤ 2 ^ (970 : ℤ)) {xs : List B64} {as : List ℚ} (hv : Vals xs as) (hab : ∀ v ∈ as, a ≤ v ∧ v ≤ b) :
    ∃ r, Ema p xs = .ok r ∧ r.length = as.length ∧ ∀ v ∈ r, ∃ s, v.val = .fin s ∧
      a - (M * (p + 1) / 2 ^ 51 + 2 ^ (-1074 : ℤ)) ≤ s ∧ s ≤ b + (M * (p + 1) / 2 ^ 51 + 2 ^ (-1074 : ℤ)) := by
  obtain ⟨e, he, he', hsmall, N, hN0, hN, hMN⟩ := exists_grid hp' ((abs_nonneg a).trans ha) hM
  have h2 : (0 : ℚ) < 2 ^ e := by positivity
  have bound : ∀ c : ℚ, |c| ≤ M → -N ≤ ⌊c / 2 ^ e⌋ ∧ ⌊c / 2 ^ e⌋ ≤ N ∧ -N ≤ ⌈c / 2 ^ e⌉ ∧ ⌈c / 2 ^ e⌉ ≤ N := by
    intro c hc
    have h3 : c / 2 ^ e ≤ (N : ℚ) := by rw [div_le_iff₀ h2]; linarith [le_abs_self c]
    have h4 : ((-N : ℤ) : ℚ) ≤ c / 2 ^ e := by rw [le_div_iff₀ h2]; push_cast; linarith [neg_abs_le c]
    refine ⟨Int.le_floor.mpr h4, ?_, ?_, Int.ceil_le.mpr h3⟩
    · exact_mod_cast (Int.floor_le _).trans h3
    · exact_mod_cast h4.trans (Int.le_ceil _)
  have fits : ∀ z : ℤ, -N ≤ z → z ≤ N → (p + 1) * |z| ≤ 2 ^ 53 := fun z h3 h4 =>
    (mul_le_mul_of_nonneg_left (abs_le.mpr ⟨h3, h4⟩) (by omega)).trans hN
  obtain ⟨l1, l2, -, -⟩ := bound a ha
  obtain ⟨-, -, u1, u2⟩ := bound b hb
  have hlo : (⌊a / 2 ^ e⌋ : ℚ) * 2 ^ e ≤ a := by rw [← le_div_iff₀ h2]; exact Int.floor_le _
  have hhi : b ≤ (⌈b / 2 ^ e⌉ : ℚ) * 2 ^ e := by rw [← div_le_iff₀ h2]; exact Int.le_ceil _
  have hlo' : a - 2 ^ e ≤ (⌊a / 2 ^ e⌋ : ℚ) * 2 ^ e := by
    have := (Int.sub_one_lt_floor (a / 2 ^ e)).le
    have := mul_le_mul_of_nonneg_right this h2.le
    rwa [sub_mul, div_mul_cancel₀ _ h2.ne', one_mul] at this
  have hhi' : (⌈b / 2 ^ e⌉ : ℚ) * 2 ^ e ≤ b + 2 ^ e := by
    have := (Int.ceil_lt_add_one (b / 2 ^ e)).le
    have := mul_le_mul_of_nonneg_right this h2.le
    rwa [add_mul, div_mul_cancel₀ _ h2.ne', one_mul] at this
  obtain ⟨r, hr, hl, hs⟩ := C103_ema_range_partial hp (by omega) he he' (fits _ l1 l2) (fits _ u1 u2) hv
    (fun v h => ⟨hlo.trans (hab v h).1, (hab v h).2.trans hhi⟩)
  refine ⟨r, hr, hl, fun v h => ?_⟩
  obtain ⟨s, h3, h4, h5⟩ := hs v h
  exact ⟨s, h3, by linarith, by linarith⟩

/-- **C103 (Ema, flat data).** The average of a constant `c` is off by at most `|c| (p + 1) 2^-51`. -/
theorem C103_ema_flat {p : Nat} (hp : 1 ≤ p) (hp' : p + 1 ≤ 2 ^ 52) {c : ℚ} (hc : |c| ≤ 2 ^ (970 : ℤ)) {xs : List B64} {as : List ℚ}
    (hv : Vals xs as) (hab : ∀ v ∈ as, v = c) :
    ∃ r, Ema p xs = .ok r ∧ r.length = as.length ∧ ∀ v ∈ r, ∃ s, v.val = .fin s ∧
      |s - c| ≤ |c| * (p + 1) / 2 ^ 51 + 2 ^ (-1074 : ℤ) := by
  obtain ⟨r, hr, hl, h⟩ := C103_ema_near hp hp' (le_refl |c|) (le_refl |c|) hc hv (fun v h => by rw [hab v h]; exact ⟨le_rfl, le_rfl⟩)
  refine ⟨r, hr, hl, fun v hv => ?_⟩
  obtain ⟨s, h1, h2, h3⟩ := h v hv
  exact ⟨s, h1, abs_le.mpr ⟨by linarith, by linarith⟩⟩

/-- Two prices of 0.1: the average is a number within `0.1 * 13 * 2^-51` of it (and by C103 not always 0.1). -/
example : ∃ r, Ema 12 ([lit 0.1, lit 0.1] : List B64) = .ok r ∧ r.length = 2 ∧ ∀ v ∈ r, ∃ s, v.val = .fin s ∧
    |s - 3602879701896397 / 2 ^ 55| ≤ |3602879701896397 / 2 ^ 55| * (12 + 1) / 2 ^ 51 + 2 ^ (-1074 : ℤ) := by
  have h := C103_ema_flat (p := 12) (c := 3602879701896397 / 2 ^ 55) (by norm_num) (by norm_num)
    (by
      have h : (2 : ℚ) ^ (0 : ℤ) ≤ 2 ^ (970 : ℤ) := zpow_le_zpow_right₀ (by norm_num) (by norm_num)
      rw [abs_of_nonneg (by positivity)]
      exact le_trans (by norm_num) h)
    (xs := [lit 0.1, lit 0.1]) (as := [3602879701896397 / 2 ^ 55, 3602879701896397 / 2 ^ 55]) (by decide +kernel) (by simp)
  simpa using h

end Verif.Props
