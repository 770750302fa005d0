import Verif.Go.Float53
import Verif.Go.Math64

/-!
# The square root of 53 bits

`math.Sqrt` for `F53`, and the proof that it agrees with the square root of float64 on all of float64.
-/

namespace Verif

/-- Rounding to the nearest integer only asks on which side of the halves a number lies. -/
theorem halfEven_congr {x y : ℚ} (h1 : ∀ g : ℤ, (g : ℚ) ≤ 2 * x ↔ (g : ℚ) ≤ 2 * y)
    (h2 : ∀ g : ℤ, 2 * x ≤ (g : ℚ) ↔ 2 * y ≤ (g : ℚ)) : halfEven x = halfEven y := by
  have hf : ⌊x⌋ = ⌊y⌋ := by
    have key : ∀ n : ℤ, n ≤ ⌊x⌋ ↔ n ≤ ⌊y⌋ := fun n => by
      rw [Int.le_floor, Int.le_floor]
      have := h1 (2 * n)
      push_cast at this
      rwa [mul_le_mul_iff_right₀ (by norm_num), mul_le_mul_iff_right₀ (by norm_num)] at this
    exact le_antisymm ((key _).mp le_rfl) ((key _).mpr le_rfl)
  have a := h1 (2 * ⌊x⌋ + 1)
  have b := h2 (2 * ⌊x⌋ + 1)
  push_cast at a b
  have a' : x - ⌊x⌋ < 1 / 2 ↔ y - ⌊x⌋ < 1 / 2 := by
    constructor
    · intro h; by_contra hn; have := a.mpr (by linarith); linarith
    · intro h; by_contra hn; have := a.mp (by linarith); linarith
  have b' : 1 / 2 < x - ⌊x⌋ ↔ 1 / 2 < y - ⌊x⌋ := by
    constructor
    · intro h; by_contra hn; have := b.mpr (by linarith); linarith
    · intro h; by_contra hn; have := b.mp (by linarith); linarith
  simp only [halfEven, ← hf, a', b']

/-- `x` lies on the same side as `√q` of every multiple of `2^(h - 53)`. -/
def RootLike (q : ℚ) (h : ℤ) (x : ℚ) : Prop :=
  ∀ g : ℕ, ((g : ℚ) * 2 ^ (h - 53) ≤ x ↔ ((g : ℚ) * 2 ^ (h - 53)) ^ 2 ≤ q) ∧
    (x ≤ (g : ℚ) * 2 ^ (h - 53) ↔ q ≤ ((g : ℚ) * 2 ^ (h - 53)) ^ 2)

theorem pow_split (h : ℤ) (n : ℕ) : (2 : ℚ) ^ (h + n) = ((2 ^ (53 + n) : ℕ) : ℚ) * 2 ^ (h - 53) := by
  rw [show h + (n : ℤ) = ((53 + n : ℕ) : ℤ) + (h - 53) by push_cast; ring, zpow_add₀ (by norm_num), zpow_natCast]
  push_cast
  rfl

theorem RootLike.binade_eq {q x : ℚ} {h : ℤ} (hx : RootLike q h x) (h1 : (4 : ℚ) ^ h ≤ q) (h2 : q < 4 ^ (h + 1)) :
    binade x = h := by
  have e4 : ∀ k : ℤ, ((2 : ℚ) ^ k) ^ 2 = 4 ^ k := fun k => by
    rw [← zpow_natCast, ← zpow_mul, mul_comm, zpow_mul]; norm_num
  have a := (hx (2 ^ 53)).1
  have b := (hx (2 ^ (53 + 1))).1
  have ea := pow_split h 0
  have eb := pow_split h 1
  rw [show 53 + 0 = 53 from rfl, Nat.cast_zero, add_zero] at ea
  rw [Nat.cast_one] at eb
  rw [← ea, e4] at a
  rw [← eb, e4] at b
  exact binade_unique (a.mpr h1) (lt_of_not_ge fun hn => absurd (b.mp hn) (not_le.mpr h2))

theorem RootLike.round_eq {q x y : ℚ} {h : ℤ} (hx : RootLike q h x) (hy : RootLike q h y) (h1 : (4 : ℚ) ^ h ≤ q)
    (h2 : q < 4 ^ (h + 1)) : round53 x = round53 y := by
  have hb := hx.binade_eq h1 h2
  have hb' := hy.binade_eq h1 h2
  have pos : ∀ {z}, RootLike q h z → 0 < z := fun {z} hz => by
    have e := pow_split h 0
    have a := (hz (2 ^ 53)).1
    rw [show 53 + 0 = 53 from rfl, Nat.cast_zero, add_zero] at e
    rw [← e] at a
    have h4 : ((2 : ℚ) ^ h) ^ 2 = 4 ^ h := by rw [← zpow_natCast, ← zpow_mul, mul_comm, zpow_mul]; norm_num
    rw [h4] at a
    exact (zpow_pos (by norm_num) h).trans_le (a.mpr h1)
  have hp : (0 : ℚ) < 2 ^ (h - 53) := zpow_pos (by norm_num) _
  have e52 : (2 : ℚ) ^ (h - 52) = 2 * 2 ^ (h - 53) := by
    rw [show h - 52 = 1 + (h - 53) by ring, zpow_add₀ (by norm_num), zpow_one]
  have conv : ∀ z : ℚ, 2 * (z / 2 ^ (h - 52)) = z / 2 ^ (h - 53) := fun z => by
    rw [e52]; field_simp
  rw [round53, round53, if_neg (not_le.mpr (pos hx)), if_neg (not_le.mpr (pos hy)), hb, hb', pow2_eq]
  congr 2
  have side : ∀ {z}, RootLike q h z → ∀ g : ℤ, ((g : ℚ) ≤ z / 2 ^ (h - 53) ↔ g ≤ 0 ∨ ((g.toNat : ℚ) * 2 ^ (h - 53)) ^ 2 ≤ q) ∧
      (z / 2 ^ (h - 53) ≤ (g : ℚ) ↔ 0 ≤ g ∧ q ≤ ((g.toNat : ℚ) * 2 ^ (h - 53)) ^ 2) := fun {z} hz g => by
    have hz0 := div_pos (pos hz) hp
    rcases le_total g 0 with hg | hg
    · have hgq : (g : ℚ) ≤ 0 := by exact_mod_cast hg
      refine ⟨⟨fun _ => .inl hg, fun _ => hgq.trans hz0.le⟩, ⟨fun h => absurd (h.trans hgq) (not_le.mpr hz0), fun ⟨h, hq⟩ => ?_⟩⟩
      obtain rfl : g = 0 := le_antisymm hg h
      simp only [Int.toNat_zero, Nat.cast_zero, zero_mul, ne_eq, OfNat.ofNat_ne_zero, not_false_eq_true, zero_pow] at hq
      exact absurd ((zpow_pos (by norm_num) _).trans_le h1 : (0 : ℚ) < q) (not_lt.mpr hq)
    · obtain ⟨n, rfl⟩ := Int.eq_ofNat_of_zero_le hg
      rw [Int.toNat_natCast, Int.cast_natCast, le_div_iff₀ hp, div_le_iff₀ hp, (hz n).1, (hz n).2]
      refine ⟨⟨.inr, fun h => h.elim (fun h => ?_) id⟩, ⟨fun h => ⟨hg, h⟩, fun h => h.2⟩⟩
      obtain rfl : n = 0 := by omega
      simp only [Nat.cast_zero, zero_mul, ne_eq, OfNat.ofNat_ne_zero, not_false_eq_true, zero_pow]
      exact ((zpow_pos (by norm_num) _).trans_le h1 : (0 : ℚ) < q).le
  refine halfEven_congr (fun g => ?_) fun g => ?_
  · rw [conv, conv, (side hx g).1, (side hy g).1]
  · rw [conv, conv, (side hx g).2, (side hy g).2]

/-- The square root, rounded to 53 bits: `q` is brought into `[1, 4)`, the root computed to 60 bits with a sticky bit
(`rootInt`) and rounded. -/
def root53 (q : ℚ) : ℚ :=
  let h := binade q / 2
  round53 (rootInt (q / 4 ^ h * 4 ^ 60).num.toNat / 2 ^ 60) * 2 ^ h

theorem four_zpow (k : ℤ) : (4 : ℚ) ^ k = 2 ^ (2 * k) := by rw [zpow_mul]; norm_num

/-- `math.Sqrt` without limits on the exponent. -/
def sqrt53 : F53 → F53
  | .nan => .nan
  | .inf s => if s then .nan else .inf false
  | .fin s q => if q ≤ 0 then .fin s 0 else if s then .nan else .fin false (root53 q)

/-- The square root of 53 bits is that of float64. -/
theorem root53_eq {q : ℚ} (hq : Rep q) (h0 : 0 < q) : root53 q = sqrtMag q := by
  obtain ⟨b1, b2⟩ := binade_spec h0
  rw [pow2_eq] at b1 b2
  rw [root53, sqrtMag]
  have hlow : -1074 ≤ binade q := by
    obtain ⟨n, hn⟩ := hq.multiple
    have : (2 : ℚ) ^ (-1074 : ℤ) ≤ q := by
      have hp : (0 : ℚ) < 2 ^ (-1074 : ℤ) := zpow_pos (by norm_num) _
      rw [hn] at h0 ⊢
      have h1 : (0 : ℚ) < n := pos_of_mul_pos_left h0 hp.le
      have h1 : (1 : ℚ) ≤ n := by exact_mod_cast h1
      nlinarith
    have := (zpow_lt_zpow_iff_right₀ (by norm_num : (1 : ℚ) < 2)).mp (this.trans_lt b2)
    omega
  obtain ⟨z, hz⟩ := hq.multiple_of_le b1
  generalize hB : binade q = b at *
  have h1 : (4 : ℚ) ^ (b / 2) ≤ q := by
    rw [four_zpow]
    exact (zpow_le_zpow_right₀ (by norm_num) (by omega)).trans b1
  have h2 : q < 4 ^ (b / 2 + 1) := by
    rw [four_zpow]
    exact b2.trans_le (zpow_le_zpow_right₀ (by norm_num) (by omega))
  obtain ⟨n, hn⟩ : ∃ n : ℕ, q / 4 ^ (b / 2) * 4 ^ 60 = n := by
    have hz0 : 0 ≤ z := by
      have hp : (0 : ℚ) < 2 ^ (max (b - 52) (-1074)) := zpow_pos (by norm_num) _
      rw [hz] at h0
      have := pos_of_mul_pos_left h0 hp.le
      exact_mod_cast this.le
    obtain ⟨m, rfl⟩ := Int.eq_ofNat_of_zero_le hz0
    refine ⟨m * 2 ^ (max (b - 52) (-1074) - 2 * (b / 2) + 120).toNat, ?_⟩
    rw [hz, four_zpow, show (4 : ℚ) ^ 60 = 2 ^ (120 : ℤ) by norm_num, mul_div_assoc, ← zpow_sub₀ (by norm_num), mul_assoc,
      ← zpow_add₀ (by norm_num)]
    push_cast
    rw [← zpow_natCast, Int.toNat_of_nonneg (by omega)]
  rw [hn, Rat.num_natCast, Int.toNat_natCast]
  have hqn : q = n * (2 ^ (b / 2 - 60)) ^ 2 := by
    have hne : (4 : ℚ) ^ (b / 2) ≠ 0 := (zpow_pos (by norm_num) _).ne'
    rw [← hn, zpow_sub₀ (by norm_num), div_pow, show ((2 : ℚ) ^ (b / 2)) ^ 2 = 4 ^ (b / 2) by
      rw [← zpow_natCast, ← zpow_mul, mul_comm, four_zpow]; rfl]
    norm_num
    field_simp
  have hlow' : -537 ≤ b / 2 := by omega
  generalize b / 2 = h at *
  rw [mul_comm, ← round53_shift]
  have hy : RootLike q h (2 ^ h * (rootInt n / 2 ^ 60)) := by
    intro g
    have e1 : (2 : ℚ) ^ h * (rootInt n / 2 ^ 60) = rootInt n * 2 ^ (h - 60) := by
      rw [zpow_sub₀ (by norm_num)]; norm_num; ring
    have e2 : (g : ℚ) * 2 ^ (h - 53) = ((g * 128 : ℕ) : ℚ) * 2 ^ (h - 60) := by
      rw [show h - 53 = 7 + (h - 60) by ring, zpow_add₀ (by norm_num)]; push_cast; ring
    have hp : (0 : ℚ) < 2 ^ (h - 60) := zpow_pos (by norm_num) _
    rw [e1, e2, mul_le_mul_iff_left₀ hp, mul_le_mul_iff_left₀ hp, le_rootInt, rootInt_le, mul_pow, hqn,
      mul_le_mul_iff_left₀ (pow_pos hp 2), mul_le_mul_iff_left₀ (pow_pos hp 2), sq]
    exact ⟨by exact_mod_cast Iff.rfl, by exact_mod_cast Iff.rfl⟩
  have hx : RootLike q h (rootMag q) := by
    intro g
    have e : (g : ℚ) * 2 ^ (h - 53) = ((g * 2 ^ (h - 53 + 1075).toNat : ℕ) : ℚ) / 2 ^ 1075 := by
      push_cast
      rw [← zpow_natCast, Int.toNat_of_nonneg (by omega), zpow_add₀ (by norm_num), ← mul_assoc]
      norm_cast
      rw [mul_div_assoc, div_self (by positivity), mul_one]
    rw [e, le_rootMag hq, rootMag_le hq]
    exact ⟨Iff.rfl, Iff.rfl⟩
  rw [hy.round_eq hx h1 h2]
  refine round53_normal ?_
  have e := pow_split h 0
  have a := (hx (2 ^ 53)).1
  rw [show 53 + 0 = 53 from rfl, Nat.cast_zero, add_zero] at e
  rw [← e, show ((2 : ℚ) ^ h) ^ 2 = 4 ^ h by rw [← zpow_natCast, ← zpow_mul, mul_comm, four_zpow]; rfl] at a
  exact (zpow_le_zpow_right₀ (by norm_num) (by omega)).trans (a.mpr h1)


/-- `math.Sqrt` of float64 needs no limits on the exponent. -/
theorem sqrt53_of (x : B64) : F53.of (B64.sqrt x) = sqrt53 (F53.of x) := by
  cases x with
  | nan => rfl
  | inf s => cases s <;> rfl
  | fin s q hq =>
    rw [B64.sqrt, F53.of, sqrt53]
    by_cases h0 : q = 0
    · subst h0; rw [if_pos rfl, if_pos le_rfl]; rfl
    · have hp : 0 < q := lt_of_le_of_ne hq.nonneg (Ne.symm h0)
      rw [if_neg h0, if_neg (not_le.mpr hp)]
      cases s
      · rw [if_neg (by decide), if_neg (by decide), root53_eq hq hp]
        rw [B64.ofMag, dif_pos (show roundMag (rootMag q) ≤ maxFinite from (sqrtMag_rep hq).2)]
        rfl
      · rfl

end Verif
