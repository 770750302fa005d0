import Verif.Go.Decimal
import Verif.Props.F64Math
import Verif.Props.Channels

/-!
# Decimal rounding (C125, C108)

`FormatDecimalFloat64` of `utils/commonutils`, and what holds of the two functions `RoundDigits` for any number of digits.
-/

set_option linter.unusedVariables false

namespace Verif.Props
open Verif Verif.Commonutils

/-! ## Magnitudes -/

theorem ten_pos (e : ℤ) : (0 : ℚ) < 10 ^ e := zpow_pos (by norm_num) e

theorem toDecimal_nonneg {q : ℚ} (e : ℤ) (h : 0 ≤ q) : 0 ≤ toDecimal e q := by
  have : (0 : ℤ) ≤ ⌊q / 10 ^ e + 1 / 2⌋ := Int.floor_nonneg.mpr (by have := div_nonneg h (ten_pos e).le; linarith)
  exact mul_nonneg (by exact_mod_cast this) (ten_pos e).le

theorem toDecimal_mono {p q : ℚ} (e : ℤ) (h : p ≤ q) : toDecimal e p ≤ toDecimal e q := by
  have := ten_pos e
  refine mul_le_mul_of_nonneg_right ?_ this.le
  have h2 : p / 10 ^ e ≤ q / 10 ^ e := div_le_div_of_nonneg_right h this.le
  exact_mod_cast Int.floor_le_floor (by linarith)

/-- A magnitude lies from half a unit below its decimal to less than half a unit above it. -/
theorem toDecimal_bounds (e : ℤ) (q : ℚ) : toDecimal e q - 10 ^ e / 2 ≤ q ∧ q < toDecimal e q + 10 ^ e / 2 := by
  have hp := ten_pos e
  have h1 := Int.floor_le (q / 10 ^ e + 1 / 2)
  have h2 := Int.lt_floor_add_one (q / 10 ^ e + 1 / 2)
  have e1 : q = q / 10 ^ e * 10 ^ e := (div_mul_cancel₀ _ hp.ne').symm
  rw [toDecimal]
  constructor <;> nlinarith

/-- And that determines the decimal. -/
theorem toDecimal_unique {e : ℤ} {q : ℚ} {n : ℤ} (h1 : n * 10 ^ e - 10 ^ e / 2 ≤ q) (h2 : q < n * 10 ^ e + 10 ^ e / 2) :
    toDecimal e q = n * 10 ^ e := by
  have hp := ten_pos e
  rw [toDecimal]
  congr 2
  rw [Int.floor_eq_iff]
  constructor
  · rw [← sub_le_iff_le_add, le_div_iff₀ hp]; linarith
  · rw [← lt_sub_iff_add_lt, div_lt_iff₀ hp]; linarith

/-- The next representable number. -/
theorem rep_succ {q : ℚ} (q0 : 0 < q) {m : ℤ} (hm : q = m * 2 ^ (max (binade q - 52) (-1074)))
    (h : q + 2 ^ (max (binade q - 52) (-1074)) ≤ maxFinite) : Rep (q + 2 ^ (max (binade q - 52) (-1074))) := by
  refine ⟨?_, h⟩
  clear h
  have hb := (binade_spec q0).2
  rw [pow2_eq] at hb
  have hk : binade q - 52 ≤ max (binade q - 52) (-1074) := le_max_left _ _
  have hk' : -1074 ≤ max (binade q - 52) (-1074) := le_max_right _ _
  generalize max (binade q - 52) (-1074) = k at *
  have up : (0 : ℚ) < 2 ^ k := zpow_pos (by norm_num) _
  have hm0 : 0 ≤ m := by
    rw [hm] at q0
    have := pos_of_mul_pos_left q0 up.le
    exact_mod_cast this.le
  obtain ⟨m, rfl⟩ := Int.eq_ofNat_of_zero_le hm0
  have hlt : m < 2 ^ 53 := by
    have : (m : ℚ) * 2 ^ k < 2 ^ 53 * 2 ^ k := by
      refine (show (m : ℚ) * 2 ^ k < 2 ^ (binade q + 1) from by rw [Int.cast_natCast] at hm; rwa [← hm]).trans_le ?_
      rw [show (2 : ℚ) ^ 53 = 2 ^ (53 : ℤ) by norm_num, ← zpow_add₀ (by norm_num)]
      exact zpow_le_zpow_right₀ (by norm_num) (by omega)
    exact_mod_cast lt_of_mul_lt_mul_right this up.le
  rcases (Nat.succ_le_of_lt hlt).eq_or_lt with e | e
  · refine ⟨2 ^ 52, k + 1, by norm_num, by omega, ?_⟩
    have : (m : ℚ) + 1 = 2 ^ 53 := by exact_mod_cast e
    rw [hm, zpow_add₀ (by norm_num), zpow_one, Int.cast_natCast]
    push_cast
    rw [eq_sub_of_add_eq this]
    ring
  · refine ⟨m + 1, k, e, hk', ?_⟩
    rw [hm, Int.cast_natCast]; push_cast; ring

theorem roundMag_decimal_fix {e : ℤ} {q : ℚ} (hq : Rep q) (hfin : roundMag (toDecimal e q) ≤ maxFinite) :
    roundMag (toDecimal e (roundMag (toDecimal e q))) = roundMag (toDecimal e q) := by
  have hp := ten_pos e
  have hd0 := toDecimal_nonneg e hq.nonneg
  obtain ⟨b1, b2⟩ := toDecimal_bounds e q
  have hy : Rep (roundMag (toDecimal e q)) := rep_roundMag hfin
  have hnear := roundMag_nearest hd0 hq
  obtain ⟨n, hn⟩ : ∃ n : ℤ, toDecimal e q = n * 10 ^ e := ⟨_, rfl⟩
  generalize hy' : roundMag (toDecimal e q) = y at *
  have hle : |q - toDecimal e q| ≤ 10 ^ e / 2 := abs_le.mpr ⟨by linarith, by linarith⟩
  have hle' := abs_le.mp (hnear.trans hle)
  rcases lt_or_ge y (toDecimal e q + 10 ^ e / 2) with hlt | hge
  · have : toDecimal e y = toDecimal e q := by
      rw [hn] at hlt hle' ⊢
      exact toDecimal_unique (by linarith) hlt
    rw [this, hy']
  · exfalso
    -- the value and the result are then half a decimal unit below and above
    have ey : y = toDecimal e q + 10 ^ e / 2 := by linarith
    have eq' : q = toDecimal e q - 10 ^ e / 2 := by
      rw [ey, show toDecimal e q + 10 ^ e / 2 - toDecimal e q = 10 ^ e / 2 by ring, abs_of_pos (by linarith)] at hnear
      rcases le_abs.mp hnear with h | h <;> linarith
    have q0 : 0 < q := by
      rcases hq.nonneg.eq_or_lt with h | h
      · have : toDecimal e q = 0 := by
          rw [← h, toDecimal, zero_div, zero_add]; norm_num
        linarith
      · exact h
    have hb := (binade_spec q0).1
    rw [pow2_eq] at hb
    obtain ⟨m, hm⟩ := hq.multiple_of_le hb
    obtain ⟨m', hm'⟩ := hy.multiple_of_le (hb.trans (by linarith))
    set u : ℚ := 2 ^ (max (binade q - 52) (-1074)) with hu
    have up : 0 < u := zpow_pos (by norm_num) _
    have hmm : m < m' := by
      have : (m : ℚ) * u < m' * u := by linarith
      exact_mod_cast lt_of_mul_lt_mul_right this up.le
    rcases (Int.add_one_le_iff.mpr hmm).eq_or_lt with h | h
    · -- adjacent: the decimal would lie halfway between, and be a multiple of the unit
      have hD : (10 : ℚ) ^ e = u := by
        have : (m' : ℚ) = m + 1 := by exact_mod_cast h.symm
        rw [this] at hm'
        linarith
      rw [hD] at hn eq'
      have : ((2 * m + 1 : ℤ) : ℚ) = ((2 * n : ℤ) : ℚ) := by
        have : ((2 * m + 1 : ℤ) : ℚ) * u = ((2 * n : ℤ) : ℚ) * u := by push_cast; linarith
        exact mul_right_cancel₀ up.ne' this
      have : 2 * m + 1 = 2 * n := by exact_mod_cast this
      omega
    · -- not adjacent: the number between is nearer
      have hr : Rep (q + u) := rep_succ q0 hm (by
        have h4 : ((m + 1 : ℤ) : ℚ) * u < m' * u := mul_lt_mul_of_pos_right (by exact_mod_cast h) up
        push_cast at h4
        have := hy.2
        linarith)
      have h3 := roundMag_nearest hd0 hr
      have h4 : ((m + 1 : ℤ) : ℚ) * u < m' * u := mul_lt_mul_of_pos_right (by exact_mod_cast h) up
      push_cast at h4
      rw [hy', ey, show toDecimal e q + 10 ^ e / 2 - toDecimal e q = 10 ^ e / 2 by ring, abs_of_pos (by linarith)] at h3
      rcases le_abs.mp h3 with h | h <;> linarith

/-! ## Spec -/

/-- `d` is the multiple of `10^exp` nearest to `a`; of two, the one farther from 0. -/
def NearestDecimal (exp : ℤ) (a d : ℚ) : Prop :=
  (∃ n : ℤ, d = n * 10 ^ exp) ∧
  ∀ n : ℤ, |d - a| ≤ |n * 10 ^ exp - a| ∧ (|d - a| = |n * 10 ^ exp - a| → |(n * 10 ^ exp : ℚ)| ≤ |d|)

/-- The multiple of `10^exp` a float64 of value `a` is rounded to. -/
def decimalOf (exp : ℤ) (a : ℚ) : ℚ := if a < 0 then -toDecimal exp (-a) else toDecimal exp a

theorem format_val {x : B64} {a : ℚ} (e : ℤ) (hx : x.val = .fin a) :
    ∃ y, FormatDecimalFloat64 x e = .ok y ∧ y.val = round64 (decimalOf e a) := by
  obtain ⟨s, q, h, rfl, rfl⟩ := B64.val_fin_iff.mp hx
  refine ⟨_, rfl, ?_⟩
  rw [B64.val_ofRat, show B64.signed s (toDecimal e q) = decimalOf e (B64.signed s q) from ?_]
  have h0 := h.nonneg
  cases s
  · simp [B64.signed, decimalOf, not_lt.mpr h0]
  · rcases h0.eq_or_lt with rfl | hp
    · simp [B64.signed, decimalOf, toDecimal]
      norm_num
    · simp [B64.signed, decimalOf, hp]

theorem decimalOf_neg (e : ℤ) (a : ℚ) : decimalOf e (-a) = -decimalOf e a := by
  have h0 : toDecimal e 0 = 0 := by rw [toDecimal, zero_div, zero_add]; norm_num
  rcases lt_trichotomy a 0 with h | rfl | h
  · simp [decimalOf, h, not_lt.mpr h.le]
  · simp [decimalOf, h0]
  · simp [decimalOf, h, not_lt.mpr h.le]

theorem nearest_nonneg {a : ℚ} (e : ℤ) (h : 0 ≤ a) : NearestDecimal e a (toDecimal e a) := by
  have hp := ten_pos e
  have h0 := toDecimal_nonneg e h
  obtain ⟨b1, b2⟩ := toDecimal_bounds e a
  obtain ⟨k, hk⟩ : ∃ n : ℤ, toDecimal e a = n * 10 ^ e := ⟨_, rfl⟩
  refine ⟨⟨k, hk⟩, fun n => ?_⟩
  rcases lt_trichotomy n k with hn | rfl | hn
  · have : (n : ℚ) * 10 ^ e ≤ toDecimal e a - 10 ^ e := by
      have : ((n + 1 : ℤ) : ℚ) ≤ k := by exact_mod_cast hn
      push_cast at this
      rw [hk]; nlinarith
    have ha : |(n : ℚ) * 10 ^ e - a| = a - n * 10 ^ e := by rw [abs_of_neg (by linarith)]; ring
    rw [ha]
    refine ⟨abs_le.mpr ⟨by linarith, by linarith⟩, fun heq => ?_⟩
    rw [abs_of_nonneg h0]
    refine abs_le.mpr ⟨?_, by linarith⟩
    rcases lt_or_ge n (-k) with h1 | h1
    · exfalso
      have h2 : (n : ℚ) * 10 ^ e < -toDecimal e a := by
        have : (n : ℚ) < ((-k : ℤ) : ℚ) := by exact_mod_cast h1
        push_cast at this
        rw [hk]; nlinarith
      have h3 : |toDecimal e a - a| ≤ toDecimal e a + a := abs_le.mpr ⟨by linarith, by linarith⟩
      linarith
    · have : ((-k : ℤ) : ℚ) ≤ n := by exact_mod_cast h1
      push_cast at this
      rw [hk]; nlinarith
  · rw [hk]; exact ⟨le_rfl, fun _ => le_rfl⟩
  · have : toDecimal e a + 10 ^ e ≤ (n : ℚ) * 10 ^ e := by
      have : ((k + 1 : ℤ) : ℚ) ≤ n := by exact_mod_cast hn
      push_cast at this
      rw [hk]; nlinarith
    have ha : |(n : ℚ) * 10 ^ e - a| = n * 10 ^ e - a := abs_of_pos (by linarith)
    rw [ha]
    refine ⟨abs_le.mpr ⟨by linarith, by linarith⟩, fun heq => absurd heq (ne_of_lt ?_)⟩
    rw [abs_lt]
    exact ⟨by linarith, by linarith⟩

theorem nearest_neg {e : ℤ} {a d : ℚ} (h : NearestDecimal e a d) : NearestDecimal e (-a) (-d) := by
  obtain ⟨⟨k, hk⟩, h⟩ := h
  refine ⟨⟨-k, by rw [hk]; push_cast; ring⟩, fun n => ?_⟩
  have := h (-n)
  have e1 : |((-n : ℤ) : ℚ) * 10 ^ e - a| = |(n : ℚ) * 10 ^ e - -a| := by rw [← abs_neg]; congr 1; push_cast; ring
  have e2 : |-d - -a| = |d - a| := by rw [← abs_neg]; congr 1; ring
  have e3 : |((-n : ℤ) : ℚ) * 10 ^ e| = |(n : ℚ) * 10 ^ e| := by rw [← abs_neg]; congr 1; push_cast; ring
  rw [e1, e3] at this
  rwa [e2, abs_neg]

theorem nearest_decimalOf (e : ℤ) (a : ℚ) : NearestDecimal e a (decimalOf e a) := by
  rcases lt_or_ge a 0 with h | h
  · rw [decimalOf, if_pos h]
    simpa using nearest_neg (nearest_nonneg e (a := -a) (by linarith))
  · rw [decimalOf, if_neg (not_lt.mpr h)]
    exact nearest_nonneg e h

theorem nearest_unique {e : ℤ} {a d d' : ℚ} (h : NearestDecimal e a d) (h' : NearestDecimal e a d') : d = d' := by
  obtain ⟨⟨k, rfl⟩, h⟩ := h
  obtain ⟨⟨k', rfl⟩, h'⟩ := h'
  have e1 := le_antisymm (h k').1 (h' k).1
  have e2 := le_antisymm ((h' k).2 e1.symm) ((h k').2 e1)
  rcases abs_eq_abs.mp e2 with h2 | h2
  · exact h2
  · rw [h2] at e1
    rcases abs_eq_abs.mp e1 with h3 | h3
    · linarith
    · have ha : a = 0 := by linarith
      have := (h 0).1
      rw [ha] at this
      simp only [Int.cast_zero, zero_mul, sub_zero, abs_zero] at this
      have hk := abs_nonpos_iff.mp this
      rw [hk] at h2
      linarith

theorem decimalOf_mono {a b : ℚ} (e : ℤ) (h : a ≤ b) : decimalOf e a ≤ decimalOf e b := by
  rw [decimalOf, decimalOf]
  split_ifs with h1 h2 h2
  · exact neg_le_neg (toDecimal_mono e (by linarith))
  · have := toDecimal_nonneg e (q := -a) (by linarith)
    have := toDecimal_nonneg e (not_lt.mp h2)
    linarith
  · linarith
  · exact toDecimal_mono e h

theorem decimalOf_fix_nonneg {e : ℤ} {a : ℚ} (h0 : 0 ≤ a) (ha : SRep a) (hf : |roundS (decimalOf e a)| ≤ maxFinite) :
    roundS (decimalOf e (roundS (decimalOf e a))) = roundS (decimalOf e a) := by
  have hd := toDecimal_nonneg e h0
  have e1 : decimalOf e a = toDecimal e a := by rw [decimalOf, if_neg (not_lt.mpr h0)]
  have e2 : roundS (toDecimal e a) = roundMag (toDecimal e a) := by rw [roundS, if_neg (not_lt.mpr hd)]
  rw [e1, e2] at hf ⊢
  rw [abs_of_nonneg (roundMag_nonneg _)] at hf
  have h1 := roundMag_nonneg (toDecimal e a)
  rw [decimalOf, if_neg (not_lt.mpr h1), roundS, if_neg (not_lt.mpr (toDecimal_nonneg e h1))]
  rw [SRep, abs_of_nonneg h0] at ha
  exact roundMag_decimal_fix ha hf

theorem decimalOf_fix {e : ℤ} {a : ℚ} (ha : SRep a) (hf : |roundS (decimalOf e a)| ≤ maxFinite) :
    roundS (decimalOf e (roundS (decimalOf e a))) = roundS (decimalOf e a) := by
  rcases le_total 0 a with h0 | h0
  · exact decimalOf_fix_nonneg h0 ha hf
  · have := decimalOf_fix_nonneg (e := e) (a := -a) (by linarith) ha.neg
      (by rw [decimalOf_neg, roundS_flip, abs_neg]; exact hf)
    rw [decimalOf_neg, roundS_flip, decimalOf_neg, roundS_flip] at this
    exact neg_inj.mp this

/-- Numbers of at most 52 bits times a power of ten are rounded by less than half that power. -/
theorem roundS_decimal_error {n e : ℤ} (hn : |n| < 2 ^ 52) (he : -323 ≤ e) :
    |roundS (n * 10 ^ e) - n * 10 ^ e| < 10 ^ e / 2 := by
  have hp := ten_pos e
  rcases le_or_gt |(n * 10 ^ e : ℚ)| (2 ^ (-1021 : ℤ)) with h | h
  · refine (roundS_error (by norm_num) h).trans_lt ?_
    have h1 : (10 : ℚ) ^ (-323 : ℤ) ≤ 10 ^ e := zpow_le_zpow_right₀ (by norm_num) he
    have h2 : (2 : ℚ) ^ ((-1021 : ℤ) - 54) < 10 ^ (-323 : ℤ) / 2 := by decide +kernel
    linarith
  · have h0 : 0 < |(n * 10 ^ e : ℚ)| := (zpow_pos (by norm_num) _).trans h
    obtain ⟨b1, b2⟩ := binade_spec h0
    rw [pow2_eq] at b1 b2
    have hk : -1021 ≤ binade |(n * 10 ^ e : ℚ)| + 1 := by
      have := (zpow_lt_zpow_iff_right₀ (by norm_num : (1 : ℚ) < 2)).mp (h.trans b2)
      omega
    refine (roundS_error hk b2.le).trans_lt ?_
    rw [show binade |(n * 10 ^ e : ℚ)| + 1 - 54 = binade |(n * 10 ^ e : ℚ)| + (-53) by ring, zpow_add₀ (by norm_num)]
    have h3 : |(n * 10 ^ e : ℚ)| < 2 ^ 52 * 10 ^ e := by
      rw [abs_mul, abs_of_pos hp]
      exact mul_lt_mul_of_pos_right (by exact_mod_cast hn) hp
    have h4 : (2 : ℚ) ^ (-53 : ℤ) = 1 / 2 ^ 53 := by norm_num
    rw [h4]
    have : (2 : ℚ) ^ binade |(n * 10 ^ e : ℚ)| * (1 / 2 ^ 53) < 2 ^ 52 * 10 ^ e * (1 / 2 ^ 53) :=
      mul_lt_mul_of_pos_right (b1.trans_lt h3) (by norm_num)
    refine this.trans_le (le_of_eq ?_)
    norm_num
    ring

theorem decimalOf_near_nonneg {n : ℤ} {e : ℤ} {a : ℚ} (hn : 0 ≤ n) (h : |a - n * 10 ^ e| < 10 ^ e / 2) :
    decimalOf e a = n * 10 ^ e := by
  have hp := ten_pos e
  obtain ⟨h1, h2⟩ := abs_lt.mp h
  rcases hn.eq_or_lt with rfl | hn
  · simp only [Int.cast_zero, zero_mul, sub_zero] at h1 h2 ⊢
    have h0 : ∀ q : ℚ, -(10 ^ e / 2) < q → q < 10 ^ e / 2 → toDecimal e q = 0 := fun q h1 h2 => by
      have := toDecimal_unique (e := e) (q := q) (n := 0) (by simpa using h1.le) (by simpa using h2)
      simpa using this
    rw [decimalOf, h0 a h1 h2, h0 (-a) (by linarith) (by linarith)]
    simp
  · have hn1 : (1 : ℚ) ≤ n := by exact_mod_cast hn
    have ha : 0 ≤ a := by nlinarith
    rw [decimalOf, if_neg (not_lt.mpr ha)]
    exact toDecimal_unique (by linarith) (by linarith)

theorem decimalOf_near {n : ℤ} {e : ℤ} {a : ℚ} (h : |a - n * 10 ^ e| < 10 ^ e / 2) : decimalOf e a = n * 10 ^ e := by
  rcases le_total 0 n with hn | hn
  · exact decimalOf_near_nonneg hn h
  · have := decimalOf_near_nonneg (n := -n) (a := -a) (by omega) (e := e)
      (by rw [← abs_neg]; push_cast; rwa [show -(-a - -(n : ℚ) * 10 ^ e) = a - n * 10 ^ e by ring])
    rw [decimalOf_neg] at this
    push_cast at this
    linarith

/-! ## Theorems -/

/-- C125: `FormatDecimalFloat64` panics exactly on NaN and infinities; otherwise the result is the float64 nearest to the
nearest multiple of `10^exp`, halves away from zero. -/
theorem C125_nearest (x : B64) (exp : ℤ) :
    ((∃ p, FormatDecimalFloat64 x exp = .error p) ↔ ∀ a, x.val ≠ .fin a) ∧
    ∀ a d, x.val = .fin a → NearestDecimal exp a d → ∃ y, FormatDecimalFloat64 x exp = .ok y ∧ y.val = round64 d := by
  refine ⟨?_, fun a d hx hd => ?_⟩
  · constructor
    · rintro ⟨p, hp⟩ a ha
      obtain ⟨y, hy, -⟩ := format_val exp ha
      rw [hy] at hp
      cases hp
    · intro h
      cases x with
      | nan => exact ⟨_, rfl⟩
      | inf s => exact ⟨_, rfl⟩
      | fin s q hq => exact absurd rfl (h (B64.signed s q))
  · rw [nearest_unique hd (nearest_decimalOf exp a)]
    exact format_val exp hx

/-- C125: rounding again changes nothing. -/
theorem C125_again {x y : B64} {exp : ℤ} {b : ℚ} (h : FormatDecimalFloat64 x exp = .ok y) (hy : y.val = .fin b) :
    ∃ z, FormatDecimalFloat64 y exp = .ok z ∧ z.val = .fin b := by
  obtain ⟨a, hx⟩ : ∃ a, x.val = .fin a := by
    by_contra hn
    obtain ⟨p, hp⟩ := (C125_nearest x exp).1.mpr fun a ha => hn ⟨a, ha⟩
    rw [h] at hp
    cases hp
  obtain ⟨y', h1, h2⟩ := format_val exp hx
  obtain rfl : y = y' := by rw [h] at h1; injection h1
  rw [hy] at h2
  obtain ⟨h3, h4⟩ := round64_value h2.symm
  obtain ⟨z, h5, h6⟩ := format_val exp hy
  refine ⟨z, h5, ?_⟩
  have := decimalOf_fix (e := exp) (B64.val_srep hx) (by rw [h3]; exact h4)
  rw [h3] at this
  rw [h6, round64, this, if_pos h4]

/-- C125: rounding keeps the order. -/
theorem C125_monotone {x y x' y' : B64} {exp : ℤ} {a b a' b' : ℚ} (hx : x.val = .fin a) (hy : y.val = .fin b)
    (hab : a ≤ b) (h : FormatDecimalFloat64 x exp = .ok x') (h' : FormatDecimalFloat64 y exp = .ok y')
    (hx' : x'.val = .fin a') (hy' : y'.val = .fin b') : a' ≤ b' := by
  obtain ⟨u, h1, h2⟩ := format_val exp hx
  obtain ⟨v, h3, h4⟩ := format_val exp hy
  rw [h] at h1
  rw [h'] at h3
  cases h1
  cases h3
  rw [hx'] at h2
  rw [hy'] at h4
  rw [← (round64_value h2.symm).1, ← (round64_value h4.symm).1]
  exact roundS_mono (decimalOf_mono exp hab)

/-- C125: a price of up to 15 digits, `n * 10^exp`, is the result of rounding its float64 to that number of decimals. -/
theorem C125_decimals {n : ℤ} {exp : ℤ} (hn : |n| < 2 ^ 52) (he : -323 ≤ exp) {b : ℚ}
    (hb : (GoFloat.lit (n * 10 ^ exp) : B64).val = .fin b) :
    ∃ y, FormatDecimalFloat64 (GoFloat.lit (n * 10 ^ exp)) exp = .ok y ∧ y.val = .fin b := by
  obtain ⟨y, h1, h2⟩ := format_val exp hb
  refine ⟨y, h1, ?_⟩
  rw [B64.val_lit] at hb
  have h3 := roundS_decimal_error hn he
  rw [(round64_value hb).1] at h3
  rw [h2, decimalOf_near h3, hb]

/-- The examples in the comment of the function, and a price of which half the last place is not a float64. -/
example : (FormatDecimalFloat64 (GoFloat.lit 123.456) (-2)).map B64.val = .ok ((GoFloat.lit 123.46 : B64).val) ∧
    (FormatDecimalFloat64 (GoFloat.lit 123.456) 1).map B64.val = .ok (.fin 120) ∧
    (FormatDecimalFloat64 (GoFloat.lit (-500)) (-2)).map B64.val = .ok (.fin (-500)) ∧
    (FormatDecimalFloat64 (GoFloat.lit 1.454) (-1)).map B64.val = .ok ((GoFloat.lit 1.5 : B64).val) ∧
    (FormatDecimalFloat64 (GoFloat.lit 2.675) (-2)).map B64.val = .ok ((GoFloat.lit 2.67 : B64).val) := by
  refine ⟨?_, ?_, ?_, ?_, ?_⟩ <;> decide +kernel

/-- A concrete case of `C125_decimals`: 1234567.89. -/
example : ∃ y, FormatDecimalFloat64 (GoFloat.lit ((123456789 : ℤ) * 10 ^ (-2 : ℤ))) (-2) = .ok y ∧
    y.val = .fin (5302428712241725 / 2 ^ 32) :=
  C125_decimals (n := 123456789) (exp := -2) (by norm_num) (by norm_num) (by decide +kernel)

theorem rep_max : Rep maxFinite := ⟨⟨2 ^ 53 - 1, 971, by norm_num, by norm_num, by decide +kernel⟩, le_rfl⟩

/-- C125: near the end of the range the result is infinite, and rounding it again panics. -/
theorem C125_overflow_refuted :
    ∃ x y : B64, x.val = .fin ((2 ^ 53 - 1) * 2 ^ 971) ∧ FormatDecimalFloat64 x 308 = .ok y ∧ y.val = .pinf ∧
      ∃ p, FormatDecimalFloat64 y 308 = .error p := by
  have hv : (B64.ofRat false (B64.signed false (toDecimal 308 maxFinite))).val = .pinf := by decide +kernel
  refine ⟨.fin false maxFinite rep_max, B64.ofRat false (B64.signed false (toDecimal 308 maxFinite)), by decide +kernel, rfl, hv, ?_⟩
  exact (C125_nearest _ _).1.mpr fun a h => by rw [hv] at h; cases h

/-! ## `RoundDigits` -/

open GoFloat

/-- The integer `math.Round` gives. -/
def nearestInt (a : ℚ) : ℤ := if a < 0 then -⌊-a + 1 / 2⌋ else ⌊a + 1 / 2⌋

theorem nearestInt_error (a : ℚ) : |(nearestInt a : ℚ) - a| ≤ 1 / 2 := by
  rw [nearestInt]
  split_ifs with h
  · have l1 := Int.floor_le (-a + 1 / 2)
    have l2 := Int.lt_floor_add_one (-a + 1 / 2)
    push_cast
    exact abs_le.mpr ⟨by linarith, by linarith⟩
  · have l1 := Int.floor_le (a + 1 / 2)
    have l2 := Int.lt_floor_add_one (a + 1 / 2)
    exact abs_le.mpr ⟨by linarith, by linarith⟩

theorem nearestInt_mono {a b : ℚ} (h : a ≤ b) : nearestInt a ≤ nearestInt b := by
  rw [nearestInt, nearestInt]
  split_ifs with h1 h2 h2
  · exact neg_le_neg (Int.floor_le_floor (by linarith))
  · have h3 : 0 ≤ ⌊-a + 1 / 2⌋ := Int.floor_nonneg.mpr (by linarith)
    have h4 : 0 ≤ ⌊b + 1 / 2⌋ := Int.floor_nonneg.mpr (by linarith)
    omega
  · linarith
  · exact Int.floor_le_floor (by linarith)

theorem nearestInt_near {a : ℚ} {k : ℤ} (h : |a - k| < 1 / 2) : nearestInt a = k := by
  have h1 := nearestInt_error a
  have h2 : |((nearestInt a - k : ℤ) : ℚ)| < 1 := by
    push_cast
    calc |(nearestInt a : ℚ) - k| = |((nearestInt a : ℚ) - a) + (a - k)| := by congr 1; ring
      _ ≤ _ := abs_add_le _ _
      _ < 1 := by linarith
  have : |nearestInt a - k| < 1 := by exact_mod_cast h2
  have := Int.abs_lt_one_iff.mp this
  omega

/-- Multiply, round, divide: what both functions that round to digits do. -/
theorem scaled_round {x p : B64} {a P : ℚ} (hx : x.val = .fin a) (hp : p.val = .fin P) (h0 : 0 < P) (h : |a * P| ≤ 2 ^ 51) :
    ∃ c, |c - a * P| ≤ 1 / 8 ∧ c = roundS (a * P) ∧ (B64.round (x *. p) /. p).val = round64 (nearestInt c / P) := by
  obtain ⟨h1, h2⟩ : round64 (a * P) = .fin (roundS (a * P)) ∧ |roundS (a * P) - a * P| ≤ 1 / 8 := by
    have h' : |a * P| ≤ (2 : ℚ) ^ (51 : ℤ) := by exact_mod_cast h
    have := roundS_error (k := 51) (by norm_num) h'
    refine ⟨?_, this.trans (by norm_num)⟩
    obtain ⟨r, hr, _⟩ := round64_error (k := 51) (by norm_num) (by norm_num) h'
    rw [hr, (round64_value hr).1]
  refine ⟨roundS (a * P), h2, rfl, ?_⟩
  have hm : (x *. p).val = .fin (roundS (a * P)) := by rw [B64.val_mul hx hp, h1]
  exact B64.val_div (val_round64 hm) hp h0.ne'

theorem scaled_fixed {x p : B64} {P : ℚ} {k : ℤ} (hp : p.val = .fin P) (h1 : 1 ≤ P) (h2 : P ≤ 2 ^ 100) (hk : |k| ≤ 2 ^ 50)
    (hx : x.val = round64 (k / P)) : (B64.round (x *. p) /. p).val = x.val := by
  have P0 : 0 < P := by linarith
  have hkq : |(k : ℚ)| ≤ 2 ^ 50 := by exact_mod_cast hk
  have hq : |(k : ℚ) / P| ≤ 2 ^ 50 := by
    rw [abs_div, abs_of_pos P0]
    exact (div_le_self (abs_nonneg _) h1).trans hkq
  obtain ⟨a, ha, -⟩ := round64_error (k := 50) (by norm_num) (by norm_num) (show |(k : ℚ) / P| ≤ (2 : ℚ) ^ (50 : ℤ) by exact_mod_cast hq)
  have hxa : x.val = .fin a := by rw [hx, ha]
  have ea := (round64_value ha).1
  have herr : |a * P - k| ≤ 1 / 8 := by
    rcases eq_or_ne k 0 with rfl | hk0
    · rw [Int.cast_zero, zero_div, roundS_rep srep_zero] at ea
      rw [← ea]; norm_num
    · have hlow : (2 : ℚ) ^ (-1021 : ℤ) ≤ |(k : ℚ) / P| := by
        have : (1 : ℚ) ≤ |(k : ℚ)| := by exact_mod_cast Int.one_le_abs hk0
        rw [abs_div, abs_of_pos P0, le_div_iff₀ P0]
        have h3 : (2 : ℚ) ^ (-1021 : ℤ) * P ≤ 2 ^ (-1021 : ℤ) * 2 ^ 100 := mul_le_mul_of_nonneg_left h2 (zpow_pos (by norm_num) _).le
        have h4 : (2 : ℚ) ^ (-1021 : ℤ) * 2 ^ 100 ≤ 1 := by decide +kernel
        linarith
      have := roundS_relative hlow
      rw [ea] at this
      have e : a * P - k = (a - k / P) * P := by field_simp
      rw [e, abs_mul, abs_of_pos P0]
      have e2 : |(k : ℚ) / P| * P = |(k : ℚ)| := by rw [abs_div, abs_of_pos P0, div_mul_cancel₀ _ P0.ne']
      calc |a - k / P| * P ≤ |(k : ℚ) / P| / 2 ^ 53 * P := mul_le_mul_of_nonneg_right this P0.le
        _ = |(k : ℚ)| / 2 ^ 53 := by rw [div_mul_eq_mul_div, e2]
        _ ≤ 1 / 8 := by
          rw [div_le_iff₀ (by norm_num)]
          refine hkq.trans (by norm_num)
  have hbound : |a * P| ≤ 2 ^ 51 := by
    calc |a * P| = |(a * P - k) + k| := by rw [sub_add_cancel]
      _ ≤ _ := abs_add_le _ _
      _ ≤ 1 / 8 + 2 ^ 50 := add_le_add herr hkq
      _ ≤ 2 ^ 51 := by norm_num
  obtain ⟨c, hc, -, hv⟩ := scaled_round hxa hp P0 hbound
  have : nearestInt c = k := nearestInt_near (by
    calc |c - k| = |(c - a * P) + (a * P - k)| := by rw [sub_add_sub_cancel]
      _ ≤ _ := abs_add_le _ _
      _ ≤ 1 / 8 + 1 / 8 := add_le_add hc herr
      _ < 1 / 2 := by norm_num)
  rw [hv, this, hx]

theorem scaled_mono {x y p : B64} {a b P a' b' : ℚ} (hx : x.val = .fin a) (hy : y.val = .fin b) (hp : p.val = .fin P)
    (P0 : 0 < P) (hab : a ≤ b) (hx' : (B64.round (x *. p) /. p).val = .fin a') (hy' : (B64.round (y *. p) /. p).val = .fin b') :
    a' ≤ b' := by
  have key : ∀ {z : B64} {r r' : ℚ}, z.val = .fin r → (B64.round (z *. p) /. p).val = .fin r' →
      r' = roundS (nearestInt (roundS (r * P)) / P) := fun {z r r'} hz hz' => by
    have h1 := B64.val_mul hz hp
    have bad : ∀ w : B64, (∀ c, w.val ≠ .fin c) → ∀ c, (B64.round w /. p).val ≠ .fin c := fun w hw c => by
      obtain ⟨t, m, hm, rfl, -⟩ := B64.val_fin_iff.mp hp
      cases w with
      | nan => exact fun h => by cases h
      | inf s =>
        intro h
        change (B64.inf (s ^^ t)).val = _ at h
        cases s <;> cases t <;> cases h
      | fin s q hq => exact absurd rfl (hw _)
    rcases h : round64 (r * P) with c | _ | _ | _
    · rw [h] at h1
      rw [B64.val_div (val_round64 h1) hp P0.ne'] at hz'
      rw [(round64_value h).1]
      exact (round64_value hz').1.symm
    all_goals exact absurd hz' (bad _ (fun c hc => by rw [h1, h] at hc; cases hc) _)
  rw [key hx hx', key hy hy']
  refine roundS_mono (div_le_div_of_nonneg_right ?_ P0.le)
  exact_mod_cast nearestInt_mono (roundS_mono (mul_le_mul_of_nonneg_right hab P0.le))

/-! ## The two functions -/

theorem ten_srep {d : ℕ} (hd : d ≤ 22) : SRep ((10 : ℚ) ^ d) := by
  have : (10 : ℚ) ^ d = ((5 ^ d : ℕ) : ℤ) * 2 ^ (d : ℤ) := by
    push_cast
    rw [zpow_natCast, ← mul_pow]
    norm_num
  rw [this]
  refine srep_scaled ?_ (by omega) (by omega)
  have : (5 : ℤ) ^ d ≤ 5 ^ 22 := pow_le_pow_right₀ (by norm_num) hd
  rw [abs_of_nonneg (by positivity)]
  push_cast
  exact this.trans (by norm_num)

/-- The factor computed in `helpertools.RoundDigit` is exact up to `10^22`. -/
theorem factor_val {d : ℕ} (hd : d ≤ 22) :
    (Nat.rec (motive := fun _ => B64) (GoFloat.ofInt 1) (fun _ f => f *. GoFloat.ofInt 10) d : B64).val = .fin (10 ^ d) := by
  induction d with
  | zero => simpa using B64.val_fl 1 (by norm_num)
  | succ d ih =>
    have := B64.val_mul (ih (by omega)) (show (GoFloat.ofInt 10 : B64).val = .fin 10 by simpa using B64.val_fl 10 (by norm_num))
    rw [← pow_succ, round64_rep (ten_srep hd)] at this
    exact this

variable [B64.MathLib]

/-- A decimal rounding: `ta.RoundDigits` with a `math.Pow` that is exact on `10^d`, or `helpertools.RoundDigit` with up
to 22 digits. -/
inductive RoundsTo : ℕ → (B64 → B64) → Prop where
  | ta (d : ℕ) (hd : d ≤ 22) (hpow : (B64.MathLib.pow (fl 10) (fl d)).val = .fin (10 ^ d)) : RoundsTo d fun x => Ta.RoundDigits x d
  | helper (d : ℕ) (hd : d ≤ 22) : RoundsTo d fun x => RoundDigit x d

theorem RoundsTo.form {d : ℕ} {f : B64 → B64} (h : RoundsTo d f) :
    d ≤ 22 ∧ ∃ p : B64, p.val = .fin (10 ^ d) ∧ ∀ x, f x = B64.round (x *. p) /. p := by
  cases h with
  | ta hd hpow => exact ⟨hd, _, hpow, fun x => rfl⟩
  | helper hd => exact ⟨hd, _, factor_val hd, fun x => rfl⟩

omit [B64.MathLib] in
theorem ten_bounds {d : ℕ} (hd : d ≤ 22) : (1 : ℚ) ≤ 10 ^ d ∧ (10 : ℚ) ^ d ≤ 2 ^ 100 :=
  ⟨one_le_pow₀ (by norm_num), (pow_le_pow_right₀ (by norm_num) hd).trans (by norm_num)⟩

/-- **C108 (RoundDigits).** As long as the value has at most 15 digits up to the last place kept, the result is the
float64 of one of the two decimals around the value, and rounding again changes nothing. -/
theorem C108_round_neighbour {d : ℕ} {f : B64 → B64} (hf : RoundsTo d f) {x : B64} {a : ℚ} (hx : x.val = .fin a)
    (ha : |a * 10 ^ d| ≤ 2 ^ 50 - 1) :
    ∃ k : ℤ, |k - a * 10 ^ d| < 1 ∧ (f x).val = round64 (k / 10 ^ d) ∧ (f (f x)).val = (f x).val := by
  obtain ⟨hd, p, hp, e⟩ := hf.form
  obtain ⟨h1, h2⟩ := ten_bounds hd
  obtain ⟨c, hc, -, hv⟩ := scaled_round hx hp (by linarith) (ha.trans (by norm_num))
  have hk := nearestInt_error c
  have hlt : |(nearestInt c : ℚ) - a * 10 ^ d| < 1 := by
    calc |(nearestInt c : ℚ) - a * 10 ^ d| = |(nearestInt c - c) + (c - a * 10 ^ d)| := by congr 1; ring
      _ ≤ _ := abs_add_le _ _
      _ ≤ 1 / 2 + 1 / 8 := add_le_add hk hc
      _ < 1 := by norm_num
  have hv' : (f x).val = round64 (nearestInt c / 10 ^ d) := by rw [e]; exact hv
  refine ⟨nearestInt c, hlt, hv', ?_⟩
  rw [e (f x)]
  refine scaled_fixed hp h1 h2 ?_ hv'
  have : |(nearestInt c : ℚ)| < 2 ^ 50 := by
    calc |(nearestInt c : ℚ)| = |(nearestInt c - a * 10 ^ d) + a * 10 ^ d| := by congr 1; ring
      _ ≤ _ := abs_add_le _ _
      _ < 1 + (2 ^ 50 - 1) := add_lt_add_of_lt_of_le hlt ha
      _ = 2 ^ 50 := by norm_num
  exact_mod_cast this.le

/-- **C108 (RoundDigits).** Decimals of that size stay as they are. -/
theorem C108_round_decimals {d : ℕ} {f : B64 → B64} (hf : RoundsTo d f) {k : ℤ} (hk : |k| ≤ 2 ^ 50) :
    (f (lit (k / 10 ^ d))).val = (lit (k / 10 ^ d) : B64).val := by
  obtain ⟨hd, p, hp, e⟩ := hf.form
  obtain ⟨h1, h2⟩ := ten_bounds hd
  rw [e]
  exact scaled_fixed hp h1 h2 hk (B64.val_lit _)

/-- **C108 (RoundDigits).** Rounding keeps the order, whatever the size of the values. -/
theorem C108_round_monotone {d : ℕ} {f : B64 → B64} (hf : RoundsTo d f) {x y : B64} {a b a' b' : ℚ} (hx : x.val = .fin a)
    (hy : y.val = .fin b) (hab : a ≤ b) (hx' : (f x).val = .fin a') (hy' : (f y).val = .fin b') : a' ≤ b' := by
  obtain ⟨hd, p, hp, e⟩ := hf.form
  rw [e] at hx' hy'
  exact scaled_mono hx hy hp (by have := (ten_bounds hd).1; linarith) hab hx' hy'

/-- 1234567.89 stays as it is, with a library whose `math.Pow(10, 2)` is 100. -/
example : (@Ta.RoundDigits B64 (@B64.math64 tenLib) (lit ((123456789 : ℤ) / 10 ^ 2)) (2 : ℕ)).val =
    (lit ((123456789 : ℤ) / 10 ^ 2) : B64).val :=
  @C108_round_decimals tenLib 2 _ (@RoundsTo.ta tenLib 2 (by norm_num) (by
    show (@ite _ _ _ _ _ : B64).val = _
    rw [if_neg (by rw [show (fl ((2 : ℕ) : ℤ) : B64).val = .fin 2 by simpa using B64.val_fl 2 (by norm_num)]; simp)]
    have := B64.val_fl 100 (by norm_num)
    rw [this]; norm_num)) 123456789 (by norm_num)

/-- 2.675 lies between the decimals 2.67 and 2.68. -/
example : ∃ k : ℤ, |k - (3011782250804019 / 2 ^ 50 : ℚ) * 10 ^ 2| < 1 ∧ (RoundDigit (lit 2.675 : B64) 2).val = round64 (k / 10 ^ 2) ∧
    (RoundDigit (RoundDigit (lit 2.675 : B64) 2) 2).val = (RoundDigit (lit 2.675 : B64) 2).val :=
  C108_round_neighbour (RoundsTo.helper 2 (by norm_num)) (by decide +kernel) (by rw [abs_of_pos] <;> norm_num)

end Verif.Props
