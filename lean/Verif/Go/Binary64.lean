import Verif.Go.Num
import Mathlib.Data.Rat.Floor
import Mathlib.Algebra.Order.Floor.Ring

/-!
# IEEE 754 binary64

A computable model of the arithmetic of `float64`: round to nearest, ties to even, with gradual underflow, overflow to
infinity, signed zeros and one NaN. The exact result of an operation is a rational number; `round64` takes it to the
nearest representable one. Simplification: the payload and sign of NaN are dropped, and `x*y + z` is two roundings, as
on amd64 (the Go specification lets other platforms fuse them).
-/

namespace Verif

/-- `2 ^ e`. -/
def pow2 : ℤ → ℚ
  | .ofNat n => ((2 ^ n : ℕ) : ℚ)
  | .negSucc n => 1 / ((2 ^ (n + 1) : ℕ) : ℚ)

theorem pow2_eq (e : ℤ) : pow2 e = 2 ^ e := by
  cases e with
  | ofNat n => simp [pow2]
  | negSucc n => simp [pow2, zpow_negSucc]

theorem pow2_pos (e : ℤ) : 0 < pow2 e := by rw [pow2_eq]; exact zpow_pos (by norm_num) e

/-- For a positive rational the `k` with `2^k <= q < 2^(k+1)`. -/
def binade (q : ℚ) : ℤ :=
  let k : ℤ := (Nat.log2 q.num.natAbs : ℤ) - Nat.log2 q.den
  if pow2 k ≤ q then k else k - 1

theorem binade_spec {q : ℚ} (h : 0 < q) : pow2 (binade q) ≤ q ∧ q < pow2 (binade q + 1) := by
  have hn : q.num.natAbs ≠ 0 := by
    have := Rat.num_pos.mpr h
    omega
  have hd : q.den ≠ 0 := q.den_nz
  have e : q = (q.num.natAbs : ℚ) / (q.den : ℚ) := by
    have h1 := Rat.num_div_den q
    have h2 : ((q.num.natAbs : ℤ) : ℚ) = (q.num : ℚ) := by
      congr 1
      have := Rat.num_pos.mpr h
      omega
    rw [← Int.cast_natCast, h2, h1]
  have n1 : ((2 ^ Nat.log2 q.num.natAbs : ℕ) : ℚ) ≤ q.num.natAbs := by exact_mod_cast Nat.log2_self_le hn
  have n2 : (q.num.natAbs : ℚ) < ((2 ^ (Nat.log2 q.num.natAbs + 1) : ℕ) : ℚ) := by exact_mod_cast Nat.lt_log2_self
  have d1 : ((2 ^ Nat.log2 q.den : ℕ) : ℚ) ≤ q.den := by exact_mod_cast Nat.log2_self_le hd
  have d2 : (q.den : ℚ) < ((2 ^ (Nat.log2 q.den + 1) : ℕ) : ℚ) := by exact_mod_cast Nat.lt_log2_self
  have dpos : (0 : ℚ) < q.den := by positivity
  rw [binade]
  generalize Nat.log2 q.num.natAbs = a at n1 n2 ⊢
  generalize Nat.log2 q.den = b at d1 d2 ⊢
  have hub : q < 2 ^ ((a : ℤ) - b + 1) := by
    rw [e, div_lt_iff₀ dpos, show (a : ℤ) - b + 1 = ((a + 1 : ℕ) : ℤ) - (b : ℕ) by push_cast; ring,
      zpow_sub₀ (by norm_num), zpow_natCast, zpow_natCast]
    push_cast at *
    calc (q.num.natAbs : ℚ) < 2 ^ (a + 1) := n2
      _ = 2 ^ (a + 1) / 2 ^ b * 2 ^ b := by field_simp
      _ ≤ 2 ^ (a + 1) / 2 ^ b * q.den := by gcongr
  have hlb : 2 ^ ((a : ℤ) - b - 1) ≤ q := by
    rw [e, le_div_iff₀ dpos, show (a : ℤ) - b - 1 = ((a : ℕ) : ℤ) - ((b + 1 : ℕ) : ℤ) by push_cast; ring,
      zpow_sub₀ (by norm_num), zpow_natCast, zpow_natCast]
    push_cast at *
    calc (2 : ℚ) ^ a / 2 ^ (b + 1) * q.den ≤ 2 ^ a / 2 ^ (b + 1) * 2 ^ (b + 1) := by gcongr
      _ = 2 ^ a := by field_simp
      _ ≤ q.num.natAbs := n1
  simp only [pow2_eq]
  split
  · exact ⟨by assumption, hub⟩
  · exact ⟨hlb, by rw [sub_add_cancel]; push Not at *; assumption⟩

/-- Nearest integer, ties to even. -/
def halfEven (q : ℚ) : ℤ :=
  let f := ⌊q⌋
  let r := q - f
  if r < 1 / 2 then f else if 1 / 2 < r then f + 1 else if f % 2 = 0 then f else f + 1

theorem halfEven_floor (q : ℚ) : ⌊q⌋ ≤ halfEven q ∧ halfEven q ≤ ⌊q⌋ + 1 := by
  simp only [halfEven]
  split_ifs <;> omega

theorem halfEven_mono {a b : ℚ} (h : a ≤ b) : halfEven a ≤ halfEven b := by
  rcases (Int.floor_le_floor h).eq_or_lt with hf | hf
  · simp only [halfEven, hf]
    split_ifs <;> first | omega | (exfalso; linarith)
  · have h1 := halfEven_floor a
    have h2 := halfEven_floor b
    omega

@[simp] theorem halfEven_int (n : ℤ) : halfEven (n : ℚ) = n := by
  simp [halfEven]

theorem halfEven_le {q : ℚ} {n : ℤ} (h : q ≤ n) : halfEven q ≤ n := by
  simpa using halfEven_mono h

theorem le_halfEven {q : ℚ} {n : ℤ} (h : (n : ℚ) ≤ q) : n ≤ halfEven q := by
  simpa using halfEven_mono h

/-- The exponent of the last place of the numbers around `q`. -/
def unitExp (q : ℚ) : ℤ := max (binade q - 52) (-1074)

/-- Rounding of a non-negative rational without regard to overflow. -/
def roundMag (q : ℚ) : ℚ := if q ≤ 0 then 0 else (halfEven (q / pow2 (unitExp q)) : ℚ) * pow2 (unitExp q)

/-- The greatest finite float64, `math.MaxFloat64`. -/
def maxFinite : ℚ := ((2 ^ 53 - 1) * 2 ^ 971 : ℕ)

/-- The non-negative finite values of binary64: 53-bit integers times a power of two, at most `maxFinite`. -/
def Rep (q : ℚ) : Prop := (∃ (m : ℕ) (e : ℤ), m < 2 ^ 53 ∧ -1074 ≤ e ∧ q = m * 2 ^ e) ∧ q ≤ maxFinite

theorem binade_mono {a b : ℚ} (ha : 0 < a) (h : a ≤ b) : binade a ≤ binade b := by
  have h1 := (binade_spec ha).1
  have h2 := (binade_spec (ha.trans_le h)).2
  rw [pow2_eq] at h1 h2
  have h3 : (2 : ℚ) ^ binade a < 2 ^ (binade b + 1) := (h1.trans h).trans_lt h2
  have := (zpow_lt_zpow_iff_right₀ (by norm_num : (1 : ℚ) < 2)).mp h3
  omega

theorem div_pow2 {k e : ℤ} (h : e ≤ k) : ∃ n : ℕ, (2 : ℚ) ^ k / 2 ^ e = (n : ℤ) ∧ (n : ℤ) = 2 ^ (k - e).toNat := by
  refine ⟨2 ^ (k - e).toNat, ?_, by push_cast; rfl⟩
  rw [← zpow_sub₀ (by norm_num)]
  push_cast
  rw [← zpow_natCast, Int.toNat_of_nonneg (by omega)]

theorem roundMag_le_pow {q : ℚ} {k : ℤ} (hk : unitExp q ≤ k) (h : q ≤ 2 ^ k) : roundMag q ≤ 2 ^ k := by
  rw [roundMag]
  split
  · exact (zpow_pos (by norm_num) k).le
  · obtain ⟨n, hn, _⟩ := div_pow2 hk
    have hp : (0 : ℚ) < 2 ^ unitExp q := zpow_pos (by norm_num) _
    have := halfEven_le (q := q / pow2 (unitExp q)) (n := n) (by
      rw [pow2_eq, ← hn]; gcongr)
    have h2 : (halfEven (q / pow2 (unitExp q)) : ℚ) ≤ 2 ^ k / 2 ^ unitExp q := by rw [hn]; exact_mod_cast this
    rw [pow2_eq] at *
    rwa [le_div_iff₀ hp] at h2

theorem pow_le_roundMag {q : ℚ} {k : ℤ} (hk : unitExp q ≤ k) (h : 2 ^ k ≤ q) : 2 ^ k ≤ roundMag q := by
  have h0 : (0 : ℚ) < 2 ^ k := zpow_pos (by norm_num) k
  rw [roundMag, if_neg (not_le.mpr (h0.trans_le h))]
  obtain ⟨n, hn, _⟩ := div_pow2 hk
  have hp : (0 : ℚ) < 2 ^ unitExp q := zpow_pos (by norm_num) _
  have := le_halfEven (q := q / pow2 (unitExp q)) (n := n) (by
    rw [pow2_eq, ← hn]; gcongr)
  have h2 : (2 : ℚ) ^ k / 2 ^ unitExp q ≤ (halfEven (q / pow2 (unitExp q)) : ℚ) := by rw [hn]; exact_mod_cast this
  rw [pow2_eq] at *
  rwa [div_le_iff₀ hp] at h2

theorem roundMag_nonneg (q : ℚ) : 0 ≤ roundMag q := by
  rw [roundMag]
  split
  · rfl
  · have := le_halfEven (q := q / pow2 (unitExp q)) (n := 0) (by
      push_cast; exact div_nonneg (by linarith) (pow2_pos _).le)
    exact mul_nonneg (by exact_mod_cast this) (pow2_pos _).le

@[simp] theorem roundMag_zero : roundMag 0 = 0 := by simp [roundMag]

/-- Rounding is monotone. -/
theorem roundMag_mono {a b : ℚ} (h : a ≤ b) : roundMag a ≤ roundMag b := by
  rcases le_or_gt a 0 with ha | ha
  · rw [roundMag, if_pos ha]; exact roundMag_nonneg b
  have hb := ha.trans_le h
  have hbin := binade_mono ha h
  rcases (show unitExp a ≤ unitExp b by simp only [unitExp]; omega).eq_or_lt with he | he
  · rw [roundMag, roundMag, if_neg (not_le.mpr ha), if_neg (not_le.mpr hb), he]
    have := halfEven_mono (div_le_div_of_nonneg_right h (pow2_pos (unitExp b)).le)
    exact mul_le_mul_of_nonneg_right (by exact_mod_cast this) (pow2_pos _).le
  · have h1 := (binade_spec ha).2
    have h2 := (binade_spec hb).1
    rw [pow2_eq] at h1 h2
    have hlt : binade a + 1 ≤ binade b := by simp only [unitExp] at he; omega
    have h3 : a ≤ 2 ^ binade b := h1.le.trans (zpow_le_zpow_right₀ (by norm_num) hlt)
    exact (roundMag_le_pow (by simp only [unitExp] at *; omega) h3).trans
      (pow_le_roundMag (by simp only [unitExp] at *; omega) h2)

/-- Representable numbers are not changed. -/
theorem roundMag_rep {q : ℚ} (h : Rep q) : roundMag q = q := by
  obtain ⟨⟨m, e, hm, he, rfl⟩, -⟩ := h
  rcases Nat.eq_zero_or_pos m with rfl | hm0
  · simp
  have hp : (0 : ℚ) < 2 ^ e := zpow_pos (by norm_num) e
  have hq : (0 : ℚ) < m * 2 ^ e := by positivity
  rw [roundMag, if_neg (not_le.mpr hq)]
  have h1 := (binade_spec hq).1
  rw [pow2_eq] at h1
  have h2 : (2 : ℚ) ^ binade ((m : ℚ) * 2 ^ e) < 2 ^ (e + 53) := by
    refine h1.trans_lt ?_
    rw [zpow_add₀ (by norm_num), mul_comm]
    gcongr
    exact_mod_cast hm
  have h3 := (zpow_lt_zpow_iff_right₀ (by norm_num : (1 : ℚ) < 2)).mp h2
  have hu : unitExp ((m : ℚ) * 2 ^ e) ≤ e := by simp only [unitExp]; omega
  generalize unitExp ((m : ℚ) * 2 ^ e) = u at hu
  obtain ⟨n, hn, _⟩ := div_pow2 hu
  have hd : (m : ℚ) * 2 ^ e / pow2 u = ((m * n : ℕ) : ℤ) := by
    rw [pow2_eq, mul_div_assoc, hn]; push_cast; rfl
  have hup : (2 : ℚ) ^ u ≠ 0 := (zpow_pos (by norm_num) u).ne'
  rw [hd, halfEven_int, ← hd, pow2_eq, div_mul_cancel₀ _ hup]

/-- A rounded number is representable unless it overflows. -/
theorem rep_roundMag {q : ℚ} (h : roundMag q ≤ maxFinite) : Rep (roundMag q) := by
  refine ⟨?_, h⟩
  rw [roundMag]
  split
  · exact ⟨0, 0, by norm_num, by norm_num, by simp⟩
  next hq =>
  push Not at hq
  have h0 := le_halfEven (q := q / pow2 (unitExp q)) (n := 0) (by
      push_cast; exact div_nonneg hq.le (pow2_pos _).le)
  have h1 : halfEven (q / pow2 (unitExp q)) ≤ 2 ^ 53 := by
    apply halfEven_le
    have := (binade_spec hq).2
    rw [pow2_eq] at this ⊢
    have hp : (0 : ℚ) < 2 ^ unitExp q := zpow_pos (by norm_num) _
    rw [div_le_iff₀ hp]
    push_cast
    refine this.le.trans ?_
    rw [show (9007199254740992 : ℚ) = 2 ^ (53 : ℤ) by norm_num, ← zpow_add₀ (by norm_num)]
    exact zpow_le_zpow_right₀ (by norm_num) (by simp only [unitExp]; omega)
  have hu : -1074 ≤ unitExp q := by simp only [unitExp]; omega
  obtain ⟨m, hm⟩ := Int.eq_ofNat_of_zero_le h0
  rw [hm, pow2_eq]
  rcases h1.eq_or_lt with hh | hh
  · refine ⟨2 ^ 52, unitExp q + 1, by norm_num, by omega, ?_⟩
    rw [← hm, hh, zpow_add₀ (by norm_num)]
    push_cast
    ring
  · exact ⟨m, unitExp q, by rw [hm] at hh; exact_mod_cast hh, hu, by push_cast; rfl⟩

theorem Rep.nonneg {q : ℚ} (h : Rep q) : 0 ≤ q := by
  obtain ⟨⟨m, e, -, -, rfl⟩, -⟩ := h
  have : (0 : ℚ) < 2 ^ e := zpow_pos (by norm_num) e
  positivity

theorem rep_zero : Rep 0 := ⟨⟨0, 0, by norm_num, by norm_num, by simp⟩, by rw [maxFinite]; exact Nat.cast_nonneg _⟩

/-- Representable numbers are multiples of the least positive one. -/
theorem Rep.multiple {q : ℚ} (h : Rep q) : ∃ n : ℕ, q = n * 2 ^ (-1074 : ℤ) := by
  obtain ⟨⟨m, e, -, he, rfl⟩, -⟩ := h
  obtain ⟨n, hn, _⟩ := div_pow2 he
  have hp : (2 : ℚ) ^ (-1074 : ℤ) ≠ 0 := (zpow_pos (by norm_num) _).ne'
  refine ⟨m * n, ?_⟩
  rw [div_eq_iff hp] at hn
  rw [hn, Nat.cast_mul, Int.cast_natCast, mul_assoc]


theorem abs_halfEven_sub_le (q : ℚ) (k : ℤ) : |(halfEven q : ℚ) - q| ≤ |(k : ℚ) - q| := by
  have h1 := Int.floor_le q
  have h2 := Int.lt_floor_add_one q
  have hk : k ≤ ⌊q⌋ ∨ ⌊q⌋ + 1 ≤ k := by omega
  have hk' : (k : ℚ) ≤ ⌊q⌋ ∨ (⌊q⌋ : ℚ) + 1 ≤ k := by
    rcases hk with h | h
    · left; exact_mod_cast h
    · right; exact_mod_cast h
  have key : ∀ m : ℤ, (m : ℚ) = ⌊q⌋ ∧ q - ⌊q⌋ ≤ 1 / 2 ∨ (m : ℚ) = ⌊q⌋ + 1 ∧ 1 / 2 ≤ q - ⌊q⌋ → |(m : ℚ) - q| ≤ |(k : ℚ) - q| := by
    rintro m (⟨e, h⟩ | ⟨e, h⟩) <;> rw [e] <;> rcases hk' with h3 | h3
    · rw [abs_of_nonpos (by linarith), abs_of_nonpos (by linarith)]; linarith
    · rw [abs_of_nonpos (by linarith), abs_of_nonneg (by linarith)]; linarith
    · rw [abs_of_nonneg (by linarith), abs_of_nonpos (by linarith)]; linarith
    · rw [abs_of_nonneg (by linarith), abs_of_nonneg (by linarith)]; linarith
  refine key _ ?_
  rw [halfEven]
  split_ifs with a b c
  all_goals first
    | exact Or.inl ⟨rfl, by linarith⟩
    | exact Or.inr ⟨by push_cast; rfl, by linarith⟩

theorem abs_halfEven_sub_half (q : ℚ) : |(halfEven q : ℚ) - q| ≤ 1 / 2 := by
  have h1 := Int.floor_le q
  have h2 := Int.lt_floor_add_one q
  by_cases h : q - ⌊q⌋ ≤ 1 / 2
  · refine (abs_halfEven_sub_le q ⌊q⌋).trans ?_
    rw [abs_of_nonpos (by linarith)]; linarith
  · refine (abs_halfEven_sub_le q (⌊q⌋ + 1)).trans ?_
    push_cast
    rw [abs_of_nonneg (by linarith)]; linarith

/-- Representable numbers from `2^b` on are multiples of the unit of that binade. -/
theorem Rep.multiple_of_le {r : ℚ} {b : ℤ} (hr : Rep r) (h : (2 : ℚ) ^ b ≤ r) :
    ∃ n : ℤ, r = n * 2 ^ (max (b - 52) (-1074)) := by
  obtain ⟨⟨m, e, hm, he, rfl⟩, -⟩ := hr
  have hlt : (2 : ℚ) ^ b < 2 ^ (53 + e) := by
    refine h.trans_lt ?_
    rw [zpow_add₀ (by norm_num)]
    refine mul_lt_mul_of_pos_right ?_ (zpow_pos (by norm_num) e)
    exact_mod_cast hm
  have hb := (zpow_lt_zpow_iff_right₀ (by norm_num : (1 : ℚ) < 2)).mp hlt
  obtain ⟨n, hn, -⟩ := div_pow2 (show max (b - 52) (-1074) ≤ e by omega)
  refine ⟨m * n, ?_⟩
  rw [div_eq_iff (zpow_pos (by norm_num) _).ne'] at hn
  rw [hn, Int.cast_mul, mul_assoc, Int.cast_natCast, Int.cast_natCast]

theorem roundMag_unit {q : ℚ} (hq : 0 < q) (n : ℤ) : |roundMag q - q| ≤ |n * 2 ^ unitExp q - q| := by
  have hp : (0 : ℚ) < 2 ^ unitExp q := zpow_pos (by norm_num) _
  rw [roundMag, if_neg (not_le.mpr hq), pow2_eq]
  have h := mul_le_mul_of_nonneg_right (abs_halfEven_sub_le (q / 2 ^ unitExp q) n) hp.le
  rw [← abs_of_pos hp, ← abs_mul, ← abs_mul, abs_of_pos hp, sub_mul, sub_mul, div_mul_cancel₀ _ hp.ne'] at h
  exact h

/-- `roundMag` goes to a nearest representable number. -/
theorem roundMag_nearest {q r : ℚ} (hq : 0 ≤ q) (hr : Rep r) : |roundMag q - q| ≤ |r - q| := by
  rcases hq.eq_or_lt with rfl | hq
  · simp [roundMag]
  have hp : (0 : ℚ) < 2 ^ unitExp q := zpow_pos (by norm_num) _
  have hm := roundMag_unit hq
  have hb := (binade_spec hq).1
  rw [pow2_eq] at hb
  rcases le_or_gt ((2 : ℚ) ^ binade q) r with h | h
  · obtain ⟨n, hn⟩ := hr.multiple_of_le h
    rw [hn]
    exact hm n
  by_cases hc : -1074 ≤ binade q
  · have h1 : |roundMag q - q| ≤ |(2 : ℚ) ^ binade q - q| := by
      obtain ⟨n, hn, -⟩ := div_pow2 (show unitExp q ≤ binade q by rw [unitExp]; omega)
      rw [div_eq_iff hp.ne'] at hn
      rw [hn]
      exact hm n
    refine h1.trans ?_
    rw [abs_of_nonpos (by linarith), abs_of_nonpos (by linarith)]
    linarith
  · obtain ⟨n, hn⟩ := hr.multiple
    have hu : unitExp q = -1074 := by rw [unitExp]; omega
    rw [hu] at hm
    rw [hn]
    exact hm n

/-- The error of rounding a number of at most `2^k`. -/
theorem roundMag_error {q : ℚ} {k : ℤ} (hk : -1021 ≤ k) (hq : 0 ≤ q) (h : q ≤ 2 ^ k) :
    |roundMag q - q| ≤ 2 ^ (k - 54) := by
  have hpos : (0 : ℚ) < 2 ^ (k - 54) := zpow_pos (by norm_num) _
  rcases hq.eq_or_lt with rfl | hq
  · simpa [roundMag] using hpos.le
  have hp : (0 : ℚ) < 2 ^ unitExp q := zpow_pos (by norm_num) _
  have hm := roundMag_unit hq
  have hb := (binade_spec hq).1
  rw [pow2_eq] at hb
  have hbk := (zpow_le_zpow_iff_right₀ (by norm_num : (1 : ℚ) < 2)).mp (hb.trans h)
  rcases hbk.eq_or_lt with e | hlt
  · have hq' : q = 2 ^ k := le_antisymm h (e ▸ hb)
    obtain ⟨n, hn, -⟩ := div_pow2 (show unitExp q ≤ k by rw [unitExp]; omega)
    rw [div_eq_iff hp.ne'] at hn
    have := hm n
    rw [← hn, ← hq', sub_self, abs_zero] at this
    exact this.trans hpos.le
  · have h1 : |roundMag q - q| ≤ 1 / 2 * 2 ^ unitExp q := by
      rw [roundMag, if_neg (not_le.mpr hq), pow2_eq]
      have h := mul_le_mul_of_nonneg_right (abs_halfEven_sub_half (q / 2 ^ unitExp q)) hp.le
      rw [← abs_of_pos hp, ← abs_mul, abs_of_pos hp, sub_mul, div_mul_cancel₀ _ hp.ne'] at h
      exact h
    refine h1.trans ?_
    have : (1 / 2 : ℚ) = 2 ^ (-1 : ℤ) := by norm_num
    rw [this, ← zpow_add₀ (by norm_num)]
    exact zpow_le_zpow_right₀ (by norm_num) (by rw [unitExp]; omega)

/-- Different representable numbers have a difference that does not round to 0 (gradual underflow). -/
theorem roundMag_sub_pos {a b : ℚ} (ha : Rep a) (hb : Rep b) (h : a < b) : 0 < roundMag (b - a) := by
  obtain ⟨m, hm⟩ := ha.multiple
  obtain ⟨n, hn⟩ := hb.multiple
  have hp : (0 : ℚ) < 2 ^ (-1074 : ℤ) := zpow_pos (by norm_num) _
  have hr : Rep (2 ^ (-1074 : ℤ)) := ⟨⟨1, -1074, by norm_num, le_rfl, by simp⟩, by
    rw [maxFinite]
    refine (zpow_le_one_of_nonpos₀ (by norm_num) (by norm_num) : (2 : ℚ) ^ (-1074 : ℤ) ≤ 1).trans ?_
    exact_mod_cast Nat.succ_le_of_lt (by positivity)⟩
  have h1 : (2 : ℚ) ^ (-1074 : ℤ) ≤ b - a := by
    rw [hm, hn] at h ⊢
    have h2 : m < n := by
      have := lt_of_mul_lt_mul_right h hp.le
      exact_mod_cast this
    have h3 : (m : ℚ) + 1 ≤ n := by exact_mod_cast h2
    nlinarith
  have := roundMag_mono h1
  rw [roundMag_rep hr] at this
  exact hp.trans_le this

theorem le_max_aux {n k : ℕ} (h : n ≤ 2 ^ 53) (hk : k ≠ 0) : (n : ℚ) ≤ (((2 ^ 53 - 1) * 2 ^ k : ℕ) : ℚ) := by
  have h2 : (2 ^ 53 : ℕ) ≤ (2 ^ 53 - 1) * 2 ^ k := by
    calc (2 ^ 53 : ℕ) ≤ (2 ^ 53 - 1) * 2 := by norm_num
      _ ≤ (2 ^ 53 - 1) * 2 ^ k := Nat.mul_le_mul_left _ (Nat.le_self_pow hk 2)
  exact_mod_cast h.trans h2

/-- Integers of at most 53 bits are representable. -/
theorem rep_nat {n : ℕ} (h : n ≤ 2 ^ 53) : Rep n := by
  refine ⟨?_, ?_⟩
  · rcases h.eq_or_lt with rfl | h
    · exact ⟨2 ^ 52, 1, by norm_num, by norm_num, by norm_num⟩
    · exact ⟨n, 0, h, by norm_num, by simp⟩
  · exact le_max_aux h (Nat.succ_ne_zero 970)

/-- Multiples of a power of two with at most 53 bits are representable. -/
theorem rep_scaled {n : ℕ} {e : ℤ} (h : n ≤ 2 ^ 53) (h1 : -1074 ≤ e) (h2 : e ≤ 970) : Rep (n * 2 ^ e) := by
  refine ⟨?_, ?_⟩
  · rcases h.eq_or_lt with rfl | h
    · refine ⟨2 ^ 52, e + 1, by norm_num, by omega, ?_⟩
      rw [zpow_add₀ (by norm_num)]
      push_cast
      ring
    · exact ⟨n, e, h, h1, rfl⟩
  · have e1 : maxFinite = ((2 ^ 53 - 1 : ℕ) : ℚ) * 2 ^ (970 + 1 : ℤ) := by
      rw [maxFinite, Nat.cast_mul, Nat.cast_pow 2 971, ← zpow_natCast]
      norm_num
    rw [e1]
    calc (n : ℚ) * 2 ^ e ≤ (2 ^ 53 : ℕ) * 2 ^ (970 : ℤ) :=
          mul_le_mul (by exact_mod_cast h) (zpow_le_zpow_right₀ (by norm_num) h2) (zpow_pos (by norm_num) e).le
            (Nat.cast_nonneg _)
      _ ≤ ((2 ^ 53 - 1 : ℕ) : ℚ) * 2 ^ (970 + 1 : ℤ) := by
          rw [zpow_add₀ (by norm_num), mul_comm ((2 : ℚ) ^ (970 : ℤ)), ← mul_assoc]
          refine mul_le_mul_of_nonneg_right ?_ (zpow_pos (by norm_num) _).le
          norm_num

/-- Doubling is exact as long as it does not overflow. -/
theorem rep_two_mul {q : ℚ} (h : Rep q) (hm : 2 * q ≤ maxFinite) : Rep (2 * q) := by
  obtain ⟨⟨m, e, h1, h2, rfl⟩, -⟩ := h
  refine ⟨⟨m, e + 1, h1, by omega, ?_⟩, hm⟩
  rw [zpow_add₀ (by norm_num)]
  ring

/-! ## The type -/

/-- A float64. -/
inductive B64 where
  | nan
  | inf (neg : Bool)
  | fin (neg : Bool) (q : ℚ) (h : Rep q)

namespace B64

/-- The number with the given sign and the given exact magnitude, rounded. -/
def ofMag (neg : Bool) (q : ℚ) : B64 :=
  if h : roundMag q ≤ maxFinite then .fin neg (roundMag q) (rep_roundMag h) else .inf neg

/-- An exact number, rounded; `z` is the sign of the result if the number is 0. -/
def ofRat (z : Bool) (q : ℚ) : B64 := if q = 0 then .fin z 0 rep_zero else ofMag (decide (q < 0)) |q|

/-- The number a finite value stands for. -/
def signed (neg : Bool) (q : ℚ) : ℚ := if neg then -q else q

/-- Negation flips the sign, also of 0 and of infinities. -/
def neg : B64 → B64
  | .nan => .nan
  | .inf s => .inf (!s)
  | .fin s q h => .fin (!s) q h

/-- `a + b`: an exact sum 0 is `+0`, unless both are `-0`. -/
def add : B64 → B64 → B64
  | .nan, _ => .nan
  | _, .nan => .nan
  | .inf s, .inf t => if s = t then .inf s else .nan
  | .inf s, _ => .inf s
  | _, .inf t => .inf t
  | .fin s p _, .fin t q _ => ofRat (s && t) (signed s p + signed t q)

/-- `a * b`. -/
def mul : B64 → B64 → B64
  | .nan, _ => .nan
  | _, .nan => .nan
  | .inf s, .inf t => .inf (s ^^ t)
  | .inf s, .fin t q _ => if q = 0 then .nan else .inf (s ^^ t)
  | .fin s p _, .inf t => if p = 0 then .nan else .inf (s ^^ t)
  | .fin s p _, .fin t q _ => ofMag (s ^^ t) (p * q)

/-- `a / b`: a zero divisor gives an infinity with the product of the signs, `0/0` and `Inf/Inf` NaN. -/
def div : B64 → B64 → B64
  | .nan, _ => .nan
  | _, .nan => .nan
  | .inf _, .inf _ => .nan
  | .inf s, .fin t _ _ => .inf (s ^^ t)
  | .fin s _ _, .inf t => .fin (s ^^ t) 0 rep_zero
  | .fin s p _, .fin t q _ => if q = 0 then (if p = 0 then .nan else .inf (s ^^ t)) else ofMag (s ^^ t) (p / q)

/-- The extended number a float64 stands for; `-0` and `+0` stand for 0. -/
def val : B64 → XF ℚ
  | .nan => .nan
  | .inf s => if s then .ninf else .pinf
  | .fin s q _ => .fin (signed s q)

/-- The sign bit (that of NaN is taken to be clear). -/
def signbit : B64 → Bool
  | .nan => false
  | .inf s => s
  | .fin s _ _ => s

/-- `math.Max`. -/
def max (x y : B64) : B64 :=
  if x.val = .pinf ∨ y.val = .pinf then .inf false
  else if x.val = .nan ∨ y.val = .nan then .nan
  else if x.val = .fin 0 ∧ y.val = .fin 0 then (if x.signbit then y else x)
  else if XF.lt y.val x.val then x else y

/-- `math.Min`. -/
def min (x y : B64) : B64 :=
  if x.val = .ninf ∨ y.val = .ninf then .inf true
  else if x.val = .nan ∨ y.val = .nan then .nan
  else if x.val = .fin 0 ∧ y.val = .fin 0 then (if x.signbit then x else y)
  else if XF.lt x.val y.val then x else y

instance : GoFloat B64 where
  add := add
  sub a b := add a (neg b)
  mul := mul
  div := div
  lt a b := XF.lt a.val b.val
  le a b := XF.lt a.val b.val || XF.eq a.val b.val
  eq a b := XF.eq a.val b.val
  ofInt n := ofRat false n
  lit q := ofRat false q
  isNaN x := match x with | .nan => true | _ => false
  isPosInf x := match x with | .inf false => true | _ => false
  isNegInf x := match x with | .inf true => true | _ => false
  abs x := match x with | .nan => .nan | .inf _ => .inf false | .fin _ q h => .fin false q h
  max := max
  min := min

end B64

/-! ## The number an operation stands for -/

/-- The signed numbers of binary64. -/
def SRep (q : ℚ) : Prop := Rep |q|

/-- Rounding of a signed number, without regard to overflow. -/
def roundS (q : ℚ) : ℚ := if q < 0 then -roundMag (-q) else roundMag q

/-- Rounding to binary64: the nearest representable number, an infinity on overflow. -/
def round64 (q : ℚ) : XF ℚ :=
  if |roundS q| ≤ maxFinite then .fin (roundS q) else if q < 0 then .ninf else .pinf

theorem roundS_mono {a b : ℚ} (h : a ≤ b) : roundS a ≤ roundS b := by
  rw [roundS, roundS]
  split_ifs with h1 h2 h2
  · exact neg_le_neg (roundMag_mono (neg_le_neg h))
  · exact (neg_nonpos.mpr (roundMag_nonneg _)).trans (roundMag_nonneg _)
  · linarith
  · exact roundMag_mono h

theorem roundS_rep {q : ℚ} (h : SRep q) : roundS q = q := by
  rw [roundS]
  split_ifs with h1
  · rw [SRep, abs_of_neg h1] at h
    rw [roundMag_rep h, neg_neg]
  · rw [SRep, abs_of_nonneg (not_lt.mp h1)] at h
    exact roundMag_rep h

theorem round64_rep {q : ℚ} (h : SRep q) : round64 q = .fin q := by
  rw [round64, roundS_rep h, if_pos h.2]

theorem SRep.neg {q : ℚ} (h : SRep q) : SRep (-q) := by rw [SRep, abs_neg]; exact h

theorem srep_int {n : ℤ} (h : |n| ≤ 2 ^ 53) : SRep n := by
  rw [SRep, ← Int.cast_abs, ← Int.natCast_natAbs, Int.cast_natCast]
  exact rep_nat (by rw [Int.abs_eq_natAbs] at h; omega)

theorem srep_zero : SRep 0 := by rw [SRep, abs_zero]; exact rep_zero

theorem srep_scaled {n : ℤ} {e : ℤ} (h : |n| ≤ 2 ^ 53) (h1 : -1074 ≤ e) (h2 : e ≤ 970) : SRep (n * 2 ^ e) := by
  rw [SRep, abs_mul, abs_of_pos (zpow_pos (by norm_num) e : (0 : ℚ) < 2 ^ e), ← Int.cast_abs, ← Int.natCast_natAbs,
    Int.cast_natCast]
  exact rep_scaled (by rw [Int.abs_eq_natAbs] at h; omega) h1 h2

theorem srep_two_mul {q : ℚ} (h : SRep q) (hm : |2 * q| ≤ maxFinite) : SRep (2 * q) := by
  rw [SRep, abs_mul, abs_two] at *
  exact rep_two_mul h hm

/-- A number between two representable ones is rounded to one between them. -/
theorem round64_between {q lo hi : ℚ} (hlo : SRep lo) (hhi : SRep hi) (h1 : lo ≤ q) (h2 : q ≤ hi) :
    ∃ r, round64 q = .fin r ∧ lo ≤ r ∧ r ≤ hi := by
  have h3 := roundS_mono h1
  have h4 := roundS_mono h2
  rw [roundS_rep hlo] at h3
  rw [roundS_rep hhi] at h4
  refine ⟨roundS q, ?_, h3, h4⟩
  rw [round64, if_pos]
  rw [abs_le]
  have h5 := (abs_le.mp hlo.2).1
  have h6 := (abs_le.mp hhi.2).2
  constructor <;> linarith

theorem abs_roundS (q : ℚ) : |roundS q| = roundMag |q| := by
  rw [roundS]
  split_ifs with h
  · rw [abs_neg, abs_of_nonneg (roundMag_nonneg _), abs_of_neg h]
  · rw [abs_of_nonneg (roundMag_nonneg _), abs_of_nonneg (not_lt.mp h)]

/-- `roundS` goes to a nearest representable number. -/
theorem roundS_nearest (q : ℚ) {r : ℚ} (hr : SRep r) : |roundS q - q| ≤ |r - q| := by
  have key : ∀ {a s : ℚ}, 0 ≤ a → SRep s → |roundMag a - a| ≤ |s - a| := by
    intro a s ha hs
    refine (roundMag_nearest ha hs).trans ?_
    rcases le_total 0 s with h | h
    · rw [abs_of_nonneg h]
    · have h1 := abs_le.mp (le_refl |(|s|) - a|)
      rw [abs_of_nonpos (show s - a ≤ 0 by linarith), abs_le, abs_of_nonpos h]
      constructor <;> linarith
  rw [roundS]
  split_ifs with h
  · have := key (a := -q) (by linarith) hr.neg
    rw [← abs_neg, show -(-roundMag (-q) - q) = roundMag (-q) - -q by ring]
    rwa [show -r - -q = -(r - q) by ring, abs_neg (r - q)] at this
  · exact key (not_lt.mp h) hr

/-- The error of rounding a number of magnitude at most `2^k`. -/
theorem roundS_error {q : ℚ} {k : ℤ} (hk : -1021 ≤ k) (h : |q| ≤ 2 ^ k) : |roundS q - q| ≤ 2 ^ (k - 54) := by
  have := roundMag_error hk (abs_nonneg q) h
  rw [roundS]
  split_ifs with h1
  · rw [abs_of_neg h1] at this
    rwa [← abs_neg, show -(-roundMag (-q) - q) = roundMag (-q) - -q by ring]
  · rwa [abs_of_nonneg (not_lt.mp h1)] at this

/-- A rounded number of magnitude at most `2^k` is finite, of such magnitude, and close. -/
theorem round64_error {q : ℚ} {k : ℤ} (hk : -1021 ≤ k) (hk' : k ≤ 970) (h : |q| ≤ 2 ^ k) :
    ∃ r, round64 q = .fin r ∧ |r| ≤ 2 ^ k ∧ |r - q| ≤ 2 ^ (k - 54) := by
  have hs : SRep ((2 : ℚ) ^ k) := by simpa using srep_scaled (n := 1) (by norm_num) (show -1074 ≤ k by omega) hk'
  obtain ⟨r, hr, h1, h2⟩ := round64_between hs.neg hs (abs_le.mp h).1 (abs_le.mp h).2
  refine ⟨r, hr, abs_le.mpr ⟨h1, h2⟩, ?_⟩
  have he := roundS_error hk h
  rw [round64] at hr
  split_ifs at hr
  cases hr
  exact he

namespace B64

theorem srep_signed {q : ℚ} (h : Rep q) (s : Bool) : SRep (signed s q) := by
  rw [SRep, signed]
  split
  · rwa [abs_neg, abs_of_nonneg h.nonneg]
  · rwa [abs_of_nonneg h.nonneg]

theorem val_srep {x : B64} {a : ℚ} (h : x.val = .fin a) : SRep a := by
  cases x with
  | nan => simp [val] at h
  | inf s => cases s <;> simp [val] at h
  | fin s q hq =>
    simp only [val, XF.fin_inj] at h
    exact h ▸ srep_signed hq s

theorem val_ofMag (s : Bool) {q : ℚ} (h : 0 ≤ q) :
    (ofMag s q).val = round64 (signed s q) := by
  have hr := roundMag_nonneg q
  rw [ofMag, round64, abs_roundS]
  have ha : |signed s q| = q := by
    rw [signed]; split <;> simp [abs_of_nonneg h]
  rw [ha]
  split
  · simp only [val, XF.fin_inj]
    cases s with
    | false => simp [signed, roundS, not_lt.mpr h]
    | true =>
      rcases h.eq_or_lt with rfl | hp
      · simp [signed, roundS]
      · simp [signed, roundS, hp]
  · next hov =>
    cases s with
    | false => simp [val, signed, not_lt.mpr h]
    | true =>
      rcases h.eq_or_lt with rfl | hp
      · exact absurd (by rw [roundMag_zero, maxFinite]; exact Nat.cast_nonneg _) hov
      · simp [val, signed, hp]

theorem val_ofRat (z : Bool) (q : ℚ) : (ofRat z q).val = round64 q := by
  rw [ofRat]
  split
  · next h => rw [h, round64_rep srep_zero]; cases z <;> simp [val, signed]
  · next h =>
    rw [val_ofMag _ (abs_nonneg q)]
    congr 1
    rw [signed]
    split
    · next h2 => rw [decide_eq_true_iff] at h2; rw [abs_of_neg h2, neg_neg]
    · next h2 => rw [decide_eq_true_iff, not_lt] at h2; exact abs_of_nonneg h2

theorem val_fin_iff {x : B64} {a : ℚ} : x.val = .fin a ↔ ∃ s q h, x = .fin s q h ∧ signed s q = a := by
  constructor
  · intro h
    cases x with
    | nan => simp [val] at h
    | inf s => cases s <;> simp [val] at h
    | fin s q hq => exact ⟨s, q, hq, rfl, by simpa [val] using h⟩
  · rintro ⟨s, q, hq, rfl, rfl⟩; rfl

theorem val_neg {x : B64} {a : ℚ} (h : x.val = .fin a) : x.neg.val = .fin (-a) := by
  obtain ⟨s, q, hq, rfl, rfl⟩ := val_fin_iff.mp h
  cases s <;> simp [neg, val, signed]

variable {x y : B64} {a b : ℚ}

theorem val_add (hx : x.val = .fin a) (hy : y.val = .fin b) : (x +. y).val = round64 (a + b) := by
  obtain ⟨s, p, hp, rfl, rfl⟩ := val_fin_iff.mp hx
  obtain ⟨t, q, hq, rfl, rfl⟩ := val_fin_iff.mp hy
  exact val_ofRat _ _

theorem val_sub (hx : x.val = .fin a) (hy : y.val = .fin b) : (x -. y).val = round64 (a - b) := by
  rw [sub_eq_add_neg]
  exact val_add hx (val_neg hy)

theorem signed_mul (s t : Bool) (p q : ℚ) : signed (s ^^ t) (p * q) = signed s p * signed t q := by
  cases s <;> cases t <;> simp [signed]

theorem val_mul (hx : x.val = .fin a) (hy : y.val = .fin b) : (x *. y).val = round64 (a * b) := by
  obtain ⟨s, p, hp, rfl, rfl⟩ := val_fin_iff.mp hx
  obtain ⟨t, q, hq, rfl, rfl⟩ := val_fin_iff.mp hy
  rw [← signed_mul, ← val_ofMag _ (mul_nonneg hp.nonneg hq.nonneg)]
  show (mul (.fin s p hp) (.fin t q hq)).val = _
  rw [mul]

theorem val_div (hx : x.val = .fin a) (hy : y.val = .fin b) (hb : b ≠ 0) : (x /. y).val = round64 (a / b) := by
  obtain ⟨s, p, hp, rfl, rfl⟩ := val_fin_iff.mp hx
  obtain ⟨t, q, hq, rfl, rfl⟩ := val_fin_iff.mp hy
  have hq0 : q ≠ 0 := by rintro rfl; cases t <;> simp [signed] at hb
  have : signed (s ^^ t) (p / q) = signed s p / signed t q := by
    cases s <;> cases t <;> simp [signed, neg_div, div_neg]
  rw [← this]
  show (if q = 0 then (if p = 0 then nan else inf (s ^^ t)) else ofMag (s ^^ t) (p / q)).val = _
  rw [if_neg hq0]
  exact val_ofMag _ (div_nonneg hp.nonneg hq.nonneg)

/-- Dividing by a zero gives no finite number. -/
theorem val_div_zero (hx : x.val = .fin a) (hy : y.val = .fin 0) :
    (x /. y).val = if a = 0 then .nan else if 0 < a ∧ y.signbit = false ∨ a < 0 ∧ y.signbit = true then .pinf else .ninf := by
  obtain ⟨s, p, hp, rfl, rfl⟩ := val_fin_iff.mp hx
  obtain ⟨t, q, hq, rfl, hq0⟩ := val_fin_iff.mp hy
  have hq0 : q = 0 := by cases t <;> simpa [signed] using hq0
  show (if q = 0 then (if p = 0 then nan else inf (s ^^ t)) else ofMag (s ^^ t) (p / q)).val = _
  rw [if_pos hq0]
  by_cases hp0 : p = 0
  · subst hp0; simp [signed, val]
  · have hpp := lt_of_le_of_ne hp.nonneg (Ne.symm hp0)
    cases s <;> cases t <;> simp [signed, val, signbit, hp0, hpp, not_lt.mpr hpp.le]

theorem val_fl (n : ℤ) (h : |n| ≤ 2 ^ 53) : (fl n : B64).val = .fin n :=
  (val_ofRat _ _).trans (round64_rep (srep_int h))

theorem val_lit (q : ℚ) : (GoFloat.lit q : B64).val = round64 q := val_ofRat _ _

theorem val_abs (hx : x.val = .fin a) : (GoFloat.abs x).val = .fin |a| := by
  obtain ⟨s, p, hp, rfl, rfl⟩ := val_fin_iff.mp hx
  show val (.fin false p hp) = _
  rw [val, signed, signed]
  cases s <;> simp [abs_of_nonneg hp.nonneg]

theorem lt_val (hx : x.val = .fin a) (hy : y.val = .fin b) : (x <. y) = decide (a < b) := by
  show XF.lt x.val y.val = _
  rw [hx, hy]; rfl

theorem eq_val (hx : x.val = .fin a) (hy : y.val = .fin b) : (x ==. y) = decide (a = b) := by
  show XF.eq x.val y.val = _
  rw [hx, hy]; rfl

theorem le_val (hx : x.val = .fin a) (hy : y.val = .fin b) : (x <=. y) = decide (a ≤ b) := by
  show (XF.lt x.val y.val || XF.eq x.val y.val) = _
  rw [hx, hy]
  exact XF.le_fin a b

theorem val_max (hx : x.val = .fin a) (hy : y.val = .fin b) : (GoFloat.max x y).val = .fin (Max.max a b) := by
  show (B64.max x y).val = _
  rw [B64.max, hx, hy]
  simp only [reduceCtorEq, or_self, if_false, XF.fin_inj]
  split
  · next h => rw [h.1, h.2, max_self]; split <;> simp [hx, hy, h.1, h.2]
  · show (if XF.lt (.fin b) (.fin a) then x else y).val = _
    by_cases h : b < a
    · rw [if_pos (by simpa [XF.lt] using h), hx, max_eq_left h.le]
    · rw [if_neg (by simpa [XF.lt] using h), hy, max_eq_right (not_lt.mp h)]

theorem val_min (hx : x.val = .fin a) (hy : y.val = .fin b) : (GoFloat.min x y).val = .fin (Min.min a b) := by
  show (B64.min x y).val = _
  rw [B64.min, hx, hy]
  simp only [reduceCtorEq, or_self, if_false, XF.fin_inj]
  split
  · next h => rw [h.1, h.2, min_self]; split <;> simp [hx, hy, h.1, h.2]
  · show (if XF.lt (.fin a) (.fin b) then x else y).val = _
    by_cases h : a < b
    · rw [if_pos (by simpa [XF.lt] using h), hx, min_eq_left h.le]
    · rw [if_neg (by simpa [XF.lt] using h), hy, min_eq_right (not_lt.mp h)]

theorem isNaN_val (x : B64) : GoFloat.isNaN x = true ↔ x.val = .nan := by
  cases x with
  | nan => simp [val, GoFloat.isNaN]
  | inf s => cases s <;> simp [val, GoFloat.isNaN]
  | fin s q h => simp [val, GoFloat.isNaN]

theorem isInf_val (x : B64) : GoFloat.isInf x = true ↔ x.val = .pinf ∨ x.val = .ninf := by
  cases x with
  | nan => simp [val, GoFloat.isInf, GoFloat.isPosInf, GoFloat.isNegInf]
  | inf s => cases s <;> simp [val, GoFloat.isInf, GoFloat.isPosInf, GoFloat.isNegInf]
  | fin s q h => simp [val, GoFloat.isInf, GoFloat.isPosInf, GoFloat.isNegInf]

/-- Comparisons of values that are not NaN form a linear order. -/
def ordKey : OrdKey B64 (WithBot (WithTop ℚ)) where
  good x := x.val ≠ .nan
  key x := x.val.toExt
  lt_iff := fun ha hb => (XF.ordKey (K := ℚ)).lt_iff ha hb
  le_iff := fun ha hb => (XF.ordKey (K := ℚ)).le_iff ha hb
  eq_iff := fun ha hb => (XF.ordKey (K := ℚ)).eq_iff ha hb

end B64

end Verif
