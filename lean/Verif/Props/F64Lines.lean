import Verif.Props.F64Sums
import Verif.Ind.Channel

/-!
# Averages and bands in float64 arithmetic (C103, C104)
-/

namespace Verif.Props
open Verif Verif.Klines Verif.Ta Verif.Ind GoFloat

/-! ## Exponential averages -/

theorem emaF64 {p : Nat} (hp : 1 ≤ p) (hp' : p < 2 ^ 53) {e : ℤ} (he : -1074 ≤ e) (he' : e ≤ 970) {lo hi : ℤ}
    (hlo : (p + 1) * |lo| ≤ 2 ^ 53) (hhi : (p + 1) * |hi| ≤ 2 ^ 53) {x : Nat → B64} {a : Nat → ℚ}
    (n : Nat) (h : ∀ j ≤ n, (x j).val = .fin (a j)) (hb : ∀ j ≤ n, lo * 2 ^ e ≤ a j ∧ a j ≤ hi * 2 ^ e) :
    ∃ s, (emaF p x n).val = .fin s ∧ lo * 2 ^ e ≤ s ∧ s ≤ hi * 2 ^ e := by
  have rep : ∀ {b : ℤ}, (p + 1) * |b| ≤ 2 ^ 53 → ∀ c : ℤ, 0 ≤ c → c ≤ p + 1 → SRep (c * (b * 2 ^ e)) := by
    intro b hb c hc hc'
    rw [← mul_assoc, ← Int.cast_mul]
    refine srep_scaled ?_ he he'
    rw [abs_mul, abs_of_nonneg hc]
    exact (mul_le_mul_of_nonneg_right hc' (abs_nonneg b)).trans hb
  induction n with
  | zero => exact ⟨a 0, h 0 le_rfl, hb 0 le_rfl⟩
  | succ n ih =>
    obtain ⟨s, hs, s0, s1⟩ := ih (fun j hj => h j (by omega)) (fun j hj => hb j (by omega))
    have hx := h (n + 1) le_rfl
    have hb1 := hb (n + 1) le_rfl
    have hp1 : (1 : ℚ) ≤ p := by exact_mod_cast hp
    set L : ℚ := lo * 2 ^ e
    set H : ℚ := hi * 2 ^ e
    obtain ⟨u, hu, u0, u1⟩ := mul64 (B64.val_fl 2 (by norm_num)) hx (rep hlo 2 (by norm_num) (by omega))
      (rep hhi 2 (by norm_num) (by omega)) (by push_cast; linarith) (by push_cast; linarith)
    obtain ⟨v, hv, v0, v1⟩ := mul64 (B64.val_fl ((p : Int) - 1) (by rw [abs_of_nonneg (by omega)]; omega)) hs
      (rep hlo ((p : Int) - 1) (by omega) (by omega)) (rep hhi ((p : Int) - 1) (by omega) (by omega))
      (by push_cast; exact mul_le_mul_of_nonneg_left s0 (by linarith))
      (by push_cast; exact mul_le_mul_of_nonneg_left s1 (by linarith))
    push_cast at u0 u1 v0 v1
    obtain ⟨w, hw, w0, w1⟩ := add64 hu hv (rep hlo ((p : Int) + 1) (by omega) (by omega))
      (rep hhi ((p : Int) + 1) (by omega) (by omega)) (by push_cast; linarith) (by push_cast; linarith)
    push_cast at w0 w1
    have hpp : (0 : ℚ) < p + 1 := by linarith
    exact div64 hw (B64.val_fl ((p : Int) + 1) (by rw [abs_of_nonneg (by omega)]; omega))
      (by push_cast; exact hpp.ne') (by simpa using rep hlo 1 (by norm_num) (by omega))
      (by simpa using rep hhi 1 (by norm_num) (by omega))
      (by push_cast; rw [le_div_iff₀ hpp]; linarith) (by push_cast; rw [div_le_iff₀ hpp]; linarith)

/-- **C103 (Ema).** With float64 rounding the exponential average stays inside every interval `[lo 2^e, hi 2^e]` that
contains the data, provided `(p + 1) |lo|` and `(p + 1) |hi|` fit in 53 bits: whole-number bounds for instance. -/
theorem C103_ema_range_partial {p : Nat} (hp : 1 ≤ p) (hp' : p < 2 ^ 53) {e : ℤ} (he : -1074 ≤ e) (he' : e ≤ 970)
    {lo hi : ℤ} (hlo : (p + 1) * |lo| ≤ 2 ^ 53) (hhi : (p + 1) * |hi| ≤ 2 ^ 53) {xs : List B64} {as : List ℚ}
    (hv : Vals xs as) (hb : ∀ v ∈ as, lo * 2 ^ e ≤ v ∧ v ≤ hi * 2 ^ e) :
    ∃ r, Ema p xs = .ok r ∧ r.length = as.length ∧
      ∀ v ∈ r, ∃ s, v.val = .fin s ∧ lo * 2 ^ e ≤ s ∧ s ≤ hi * 2 ^ e := by
  obtain ⟨x, a, hx, ha, hxa⟩ := hv.tabs
  refine ⟨tab as.length (emaF p x), by rw [hx]; exact Ema_tab _ _ _, by simp, fun v hv => ?_⟩
  obtain ⟨i, hi, rfl⟩ := mem_tab.mp hv
  exact emaF64 hp hp' he he' hlo hhi i (fun j _ => hxa j) fun j hj =>
    hb _ (by rw [ha]; exact mem_tab.mpr ⟨j, by omega, rfl⟩)

/-- Prices between 95 and 105, given in float64: their average stays there. -/
example : ∃ r, Ema 12 ([lit 95.7, lit 104.99, lit 103.1] : List B64) = .ok r ∧ r.length = 3 ∧
    ∀ v ∈ r, ∃ s, v.val = .fin s ∧ 95 ≤ s ∧ s ≤ 105 := by
  have h := C103_ema_range_partial (p := 12) (e := 0) (lo := 95) (hi := 105) (by norm_num) (by norm_num) (by norm_num)
    (by norm_num) (by norm_num) (by norm_num) (xs := [lit 95.7, lit 104.99, lit 103.1])
    (as := [6734288817802445 / 2 ^ 46, 7388014451212943 / 2 ^ 46, 3627508762358579 / 2 ^ 45]) (by decide +kernel)
    (by
      simp only [List.mem_cons, List.not_mem_nil, or_false, forall_eq_or_imp, forall_eq]
      norm_num)
  simpa using h

/-- The range of the data itself is not kept: the average of the constant 0.1 is not 0.1. -/
theorem C103_ema_constant_refuted : ∃ r, Ema 2 ([lit 0.1, lit 0.1] : List B64) = .ok r ∧
    ¬ Vals r [3602879701896397 / 2 ^ 55, 3602879701896397 / 2 ^ 55] ∧
    Vals [lit 0.1] [3602879701896397 / 2 ^ 55] ∧ Vals r [3602879701896397 / 2 ^ 55, 7205759403792795 / 2 ^ 56] :=
  ⟨_, rfl, by decide +kernel, by decide +kernel, by decide +kernel⟩

/-- Two of those rounding errors against each other: on a market that never moves, `TraderXO` with its default periods
reports a sale. -/
theorem C103_traderXO_flat_refuted :
    (XO 12 25).signals (item64 (hlc64 [(0.1, 0.1, 0.1), (0.1, 0.1, 0.1)])) = .ok [Hold, Sell] := by
  decide +kernel

/-! ## Bands -/

/-- Candles with `0 ≤ low ≤ close ≤ high ≤ 2^900`. -/
def Sane64 (bs : List (Bar ℚ)) : Prop := ∀ b ∈ bs, 0 ≤ b.l ∧ b.l ≤ b.c ∧ b.c ≤ b.h ∧ b.h ≤ 2 ^ 900

theorem Sane64.at {bs : List (Bar ℚ)} (h : Sane64 bs) {b : Nat → Bar ℚ} (hbs : bs = tab bs.length b)
    (hb0 : ∀ i, bs.length ≤ i → b i = ⟨0, 0, 0, 0, 0⟩) (j : Nat) :
    0 ≤ (b j).l ∧ (b j).l ≤ (b j).c ∧ (b j).c ≤ (b j).h ∧ (b j).h ≤ cap := by
  by_cases hj : j < bs.length
  · have := h _ (by rw [hbs]; exact mem_tab.mpr ⟨j, hj, rfl⟩)
    exact ⟨this.1, this.2.1, this.2.2.1, this.2.2.2.trans_eq (zpow_natCast 2 900).symm⟩
  · rw [hb0 j (by omega)]
    exact ⟨le_rfl, le_rfl, le_rfl, cap_pos.le⟩

theorem bars64_sane : Sane64 bars64 := by
  have h : ∀ b ∈ bars64, 0 ≤ b.l ∧ b.l ≤ b.c ∧ b.c ≤ b.h ∧ b.h ≤ 2 ^ 2 := by
    simp only [bars64, List.mem_cons, List.not_mem_nil, or_false, forall_eq_or_imp, forall_eq]
    norm_num
  exact fun b hb => ⟨(h b hb).1, (h b hb).2.1, (h b hb).2.2.1,
    (h b hb).2.2.2.trans (pow_le_pow_right₀ (by norm_num) (by norm_num))⟩

theorem half64 : (fl 1 /. fl 2 : B64).val = .fin (1 / 2) := by
  rw [B64.val_div (B64.val_fl 1 (by norm_num)) (B64.val_fl 2 (by norm_num)) (by norm_num)]
  have : SRep ((1 : ℤ) * 2 ^ (-1 : ℤ)) := srep_scaled (by norm_num) (by norm_num) (by norm_num)
  convert round64_rep this using 2 <;> norm_num

/-- **C104 (Donchian channel).** With float64 rounding the upper and lower line are the largest and the smallest close
of the window, exactly, and the middle line lies between them. -/
theorem C104_donchian {p : Nat} (hp : 1 ≤ p) {it : Item B64} {bs : List (Bar ℚ)} (hb : Holds64 it bs) (hw : Sane64 bs)
    {d : List (Band B64)} (hd : (Donchian p).data it = .ok d) {i : Nat} {r : Band B64} (hr : d[i]? = some r) :
    ∃ u m l, r.upper.val = .fin u ∧ r.middle.val = .fin m ∧ r.lower.val = .fin l ∧ l ≤ m ∧ m ≤ u ∧
      IsGreatest {v | ∃ j b, i + 1 ≤ j + p ∧ j ≤ i ∧ bs[j]? = some b ∧ b.c = v} u ∧
      IsLeast {v | ∃ j b, i + 1 ≤ j + p ∧ j ≤ i ∧ bs[j]? = some b ∧ b.c = v} l := by
  obtain ⟨x, b, hx, hbs, hc, hb0⟩ := hb.cols
  obtain ⟨hi, -, rfl⟩ := at64 (Donchian.appends p).yields hx hd hr
  obtain ⟨u, hu, hu'⟩ := maxF64 (p := p) (by omega) i fun j _ => hc.cl j
  obtain ⟨l, hl, hl'⟩ := minF64 (p := p) (by omega) i fun j _ => hc.cl j
  have hset : {v | ∃ j b, i + 1 ≤ j + p ∧ j ≤ i ∧ bs[j]? = some b ∧ b.c = v} =
      {v | ∃ j, i + 1 ≤ j + p ∧ j ≤ i ∧ (b j).c = v} := by
    ext v
    constructor
    · rintro ⟨j, b', h1, h2, h3, rfl⟩
      rw [hbs, tab_getElem?_lt (by omega)] at h3
      exact ⟨j, h1, h2, by rw [Option.some.inj h3]⟩
    · rintro ⟨j, h1, h2, rfl⟩
      exact ⟨j, b j, h1, h2, by rw [hbs, tab_getElem?_lt (by omega)], rfl⟩
  have hlu : l ≤ u := hl'.2 hu'.1
  obtain ⟨ju, -, -, eu⟩ := hu'.1
  obtain ⟨jl, -, -, el⟩ := hl'.1
  have hu1 : u ≤ cap := by rw [← eu]; exact (hw.at hbs hb0 ju).2.2.1.trans (hw.at hbs hb0 ju).2.2.2
  have hl0 : 0 ≤ l := by rw [← el]; exact (hw.at hbs hb0 jl).1.trans (hw.at hbs hb0 jl).2.1
  have r2 : ∀ {v : ℚ}, SRep v → 0 ≤ v → v ≤ cap → SRep (2 * v) := fun hv h0 h1 => by
    refine srep_two_mul hv ?_
    have h2 := (srep_cap (n := 2) (by norm_num)).2
    rw [abs_of_nonneg (mul_nonneg (by norm_num) cap_pos.le)] at h2
    rw [abs_of_nonneg (by linarith)]
    exact le_trans (by push_cast; linarith) h2
  obtain ⟨s, hs, s0, s1⟩ := add64 hu hl (r2 (B64.val_srep hl) hl0 (hlu.trans hu1))
    (r2 (B64.val_srep hu) (hl0.trans hlu) hu1) (by linarith) (by linarith)
  obtain ⟨m, hm, m0, m1⟩ := mul64 hs half64 (B64.val_srep hl) (B64.val_srep hu) (by linarith) (by linarith)
  rw [hset]
  exact ⟨u, m, l, hu, hm, hl, m0, m1, hu', hl'⟩

/-! ### True range -/

theorem trI64 {x : Nat → Candle B64} {b : Nat → Bar ℚ} (hc : Cols64 x b)
    (hw : ∀ j, 0 ≤ (b j).l ∧ (b j).l ≤ (b j).c ∧ (b j).c ≤ (b j).h ∧ (b j).h ≤ cap) (i : Nat) : UpTo 1 (trI x i) := by
  obtain ⟨l0, lc, ch, h1⟩ := hw i
  have hcap : SRep (((1 : ℤ) : ℚ) * cap) := srep_cap (by norm_num)
  obtain ⟨c, hcv, c0, c1⟩ : ∃ c, (if i = 0 then fl 0 else Ind.cl x (i - 1) : B64).val = .fin c ∧ 0 ≤ c ∧ c ≤ cap := by
    split
    · exact ⟨0, val_zero64, le_rfl, cap_pos.le⟩
    · obtain ⟨w0, w1, w2, w3⟩ := hw (i - 1)
      exact ⟨_, hc.cl _, w0.trans w1, w2.trans w3⟩
  obtain ⟨u, hu, u0, u1⟩ := sub64 (hc.hi i) (hc.lo i) srep_zero hcap (by linarith) (by push_cast; linarith)
  obtain ⟨v, hv, -, v1⟩ := sub64 (hc.hi i) hcv hcap.neg hcap (by push_cast; linarith) (by push_cast; linarith)
  obtain ⟨w, hw', -, w1⟩ := sub64 (hc.lo i) hcv hcap.neg hcap (by push_cast; linarith) (by push_cast; linarith)
  exact ⟨_, B64.val_max hu (B64.val_max hv hw'), le_max_of_le_left u0, max_le u1 (max_le v1 w1)⟩

theorem rmaF64 {p : Nat} (hp : 1 ≤ p) (hp' : p ≤ 2 ^ 53) {x : Nat → B64} (h : ∀ j, UpTo 1 (x j)) (i : Nat) :
    UpTo 1 (rmaF p x i) := by
  suffices UpTo 1 (rmaS p x i).2 ∧ (i < p → UpTo i (rmaS p x i).1) from this.1
  induction i with
  | zero => exact ⟨UpTo.zero (by norm_num), fun _ => UpTo.zero le_rfl⟩
  | succ k ih =>
    rw [rmaS]
    split
    · next hk =>
      have hs := (ih.2 (by omega)).add (h (k + 1)) (by rw [abs_of_nonneg (by omega)]; omega)
      refine ⟨UpTo.div (hs.mono (by omega)) (by omega) (by rw [abs_of_nonneg (by omega)]; omega) (by norm_num),
        fun _ => by rw [Nat.cast_succ]; exact hs⟩
    · next hk =>
      have h1 := ih.1.mul (n := (p : ℤ) - 1) (by omega) (by rw [abs_of_nonneg (by omega)]; omega)
        (by rw [one_mul, abs_of_nonneg (by omega)]; omega)
      have h2 := h1.add (h (k + 1)) (by rw [one_mul, abs_of_nonneg (by omega)]; omega)
      refine ⟨UpTo.div (h2.mono (by omega)) (by omega) (by rw [abs_of_nonneg (by omega)]; omega) (by norm_num),
        fun hk' => absurd (by exact_mod_cast hk') hk⟩

/-- **C104 (ATR).** With float64 rounding, for every period from 1 to `2^53` and sane candles, true range and average
true range are finite numbers from 0 to `2^900`. -/
theorem C104_atr {p : Nat} (hp : 1 ≤ p) (hp' : p ≤ 2 ^ 53) {it : Item B64} {bs : List (Bar ℚ)} (hb : Holds64 it bs)
    (hw : Sane64 bs) {d : List (ATR.Data B64)} (hd : (ATR p).data it = .ok d) {r : ATR.Data B64} (hr : r ∈ d) :
    (∃ v, r.tr.val = .fin v ∧ 0 ≤ v ∧ v ≤ 2 ^ 900) ∧ ∃ v, r.atr.val = .fin v ∧ 0 ≤ v ∧ v ≤ 2 ^ 900 := by
  obtain ⟨i, hr⟩ := List.mem_iff_getElem?.mp hr
  obtain ⟨x, b, hx, hbs, hc, hb0⟩ := hb.cols
  obtain ⟨hi, -, rfl⟩ := at64 (ATR.makes p).yields hx hd hr
  have e : ((1 : ℤ) : ℚ) * cap = 2 ^ 900 := by rw [Int.cast_one, one_mul]; exact zpow_natCast 2 900
  have ht := trI64 hc (hw.at hbs hb0)
  constructor
  · obtain ⟨v, hv, v0, v1⟩ := ht i
    exact ⟨v, hv, v0, v1.trans_eq e⟩
  · obtain ⟨v, hv, v0, v1⟩ := rmaF64 hp hp' ht i
    exact ⟨v, hv, v0, v1.trans_eq e⟩

/-- **C104 (Keltner channel).** With float64 rounding, for every period from 1 below `2^53` and sane candles, the three
lines are finite and in order, and the middle line is at least 0. -/
theorem C104_keltner {p : Nat} (hp : 1 ≤ p) (hp' : p < 2 ^ 53) {it : Item B64} {bs : List (Bar ℚ)} (hb : Holds64 it bs)
    (hw : Sane64 bs) {d : List (Band B64)} (hd : (Keltner p).data it = .ok d) {r : Band B64} (hr : r ∈ d) :
    ∃ u m l, r.upper.val = .fin u ∧ r.middle.val = .fin m ∧ r.lower.val = .fin l ∧ l ≤ m ∧ m ≤ u ∧ 0 ≤ m := by
  obtain ⟨i, hr⟩ := List.mem_iff_getElem?.mp hr
  obtain ⟨x, b, hx, hbs, hc, hb0⟩ := hb.cols
  obtain ⟨hi, -, rfl⟩ := at64 (Keltner.appends p).yields hx hd hr
  have hw' := hw.at hbs hb0
  obtain ⟨m, hm, m0, m1⟩ := emaF64 hp hp' (e := 900) (by norm_num) (by norm_num) (lo := 0) (hi := 1)
    (by norm_num) (by simp only [abs_one, mul_one]; omega) i (fun j _ => hc.cl j) fun j _ => by
      obtain ⟨w0, w1, w2, w3⟩ := hw' j
      rw [Int.cast_zero, zero_mul, Int.cast_one, one_mul]
      exact ⟨w0.trans w1, w2.trans w3⟩
  have m1' : m ≤ ((1 : ℤ) : ℚ) * cap := m1
  rw [Int.cast_one, one_mul] at m1'
  rw [Int.cast_zero, zero_mul] at m0
  obtain ⟨a, ha, a0, a1⟩ := (rmaF64 hp hp'.le (trI64 hc hw') i).mul (n := 2) (by norm_num) (by norm_num) (by norm_num)
  push_cast at a1
  have hc3 : SRep (((3 : ℤ) : ℚ) * cap) := srep_cap (by norm_num)
  have := cap_pos
  obtain ⟨u, hu, u0, -⟩ := add64 hm ha (B64.val_srep hm) hc3 (by linarith) (by push_cast; linarith)
  obtain ⟨l, hl, -, l1⟩ := round64_between hc3.neg (B64.val_srep hm) (q := m - a) (by push_cast; linarith) (by linarith)
  exact ⟨u, m, l, hu, hm, (val_subF hm ha).trans hl, l1, u0, m0⟩

/-- **C104 (Camarilla).** With float64 rounding the eight inner levels keep their order around the close:
`L4 ≤ L3 ≤ L2 ≤ L1 ≤ close ≤ H1 ≤ H2 ≤ H3 ≤ H4`, all finite. -/
theorem C104_camarilla {p : Int} {it : Item B64} {bs : List (Bar ℚ)} (hb : Holds64 it bs) (hw : Sane64 bs)
    {d : List (Camarilla.Data B64)} (hd : (Camarilla p).data it = .ok d) {i : Nat} {r : Camarilla.Data B64}
    (hr : d[i]? = some r) {b : Bar ℚ} (hbi : bs[i]? = some b) :
    ∃ h1 h2 h3 h4 l1 l2 l3 l4, r.h1.val = .fin h1 ∧ r.h2.val = .fin h2 ∧ r.h3.val = .fin h3 ∧ r.h4.val = .fin h4 ∧
      r.l1.val = .fin l1 ∧ r.l2.val = .fin l2 ∧ r.l3.val = .fin l3 ∧ r.l4.val = .fin l4 ∧
      l4 ≤ l3 ∧ l3 ≤ l2 ∧ l2 ≤ l1 ∧ l1 ≤ b.c ∧ b.c ≤ h1 ∧ h1 ≤ h2 ∧ h2 ≤ h3 ∧ h3 ≤ h4 := by
  obtain ⟨x, b', hx, hbs, hc, hb0⟩ := hb.cols
  obtain ⟨hi, -, rfl⟩ := at64 (Camarilla.makes p).yields hx hd hr
  obtain rfl : b' i = b := by
    rw [hbs, tab_getElem?_lt hi] at hbi
    exact Option.some.inj hbi
  obtain ⟨w0, w1, w2, w3⟩ := hw.at hbs hb0 i
  have hcp := cap_pos
  obtain ⟨t, ht, t0, t1⟩ : ∃ t, (lit (11 / 10) : B64).val = .fin t ∧ 1 ≤ t ∧ t ≤ 2 := by
    rw [B64.val_lit]
    exact round64_between srep_one (by simpa using srep_int (n := 2) (by norm_num)) (by norm_num) (by norm_num)
  obtain ⟨g, hg, g0, g1⟩ := sub64 (hc.hi i) (hc.lo i) srep_zero (srep_cap (n := 1) (by norm_num)) (by linarith)
    (by push_cast; linarith)
  push_cast at g1
  obtain ⟨s, hs, s0, s1⟩ := mul64 hg ht srep_zero (srep_cap (n := 2) (by norm_num)) (by positivity)
    (by push_cast; nlinarith)
  push_cast at s1
  have q : ∀ k : ℤ, 2 ≤ k → k ≤ 12 → ∃ v, ((Ind.hi x i -. Ind.lo x i) *. lit (11 / 10) /. fl k).val = .fin v ∧
      0 ≤ v ∧ v ≤ cap ∧ round64 (s / k) = .fin v := by
    intro k hk hk'
    have hk2 : (2 : ℚ) ≤ k := by exact_mod_cast hk
    have hkv : (fl k : B64).val = .fin (k : ℚ) := B64.val_fl k (by rw [abs_of_nonneg (by omega)]; omega)
    obtain ⟨v, hv, v0, v1⟩ := div64 hs hkv (by linarith) srep_zero (srep_cap (n := 1) (by norm_num))
      (div_nonneg s0 (by linarith)) (by rw [div_le_iff₀ (by linarith)]; push_cast; nlinarith)
    push_cast at v1
    exact ⟨v, hv, v0, by linarith, by rw [← hv, B64.val_div hs hkv (by linarith)]⟩
  have up : ∀ {v : ℚ}, 0 ≤ v → v ≤ cap → ∃ h, round64 ((b' i).c + v) = .fin h ∧ (b' i).c ≤ h := by
    intro v v0 v1
    obtain ⟨h, hh, h0, -⟩ := round64_between (B64.val_srep (hc.cl i)) (srep_cap (n := 2) (by norm_num))
      (q := (b' i).c + v) (by linarith) (by push_cast; linarith)
    exact ⟨h, hh, h0⟩
  have dn : ∀ {v : ℚ}, 0 ≤ v → v ≤ cap → ∃ h, round64 ((b' i).c - v) = .fin h ∧ h ≤ (b' i).c := by
    intro v v0 v1
    obtain ⟨h, hh, -, h0⟩ := round64_between (srep_cap (n := 2) (by norm_num)).neg (B64.val_srep (hc.cl i))
      (q := (b' i).c - v) (by push_cast; linarith) (by linarith)
    exact ⟨h, hh, h0⟩
  obtain ⟨v1, e1, a1, c1, d1⟩ := q 12 (by norm_num) (by norm_num)
  obtain ⟨v2, e2, a2, c2, d2⟩ := q 6 (by norm_num) (by norm_num)
  obtain ⟨v3, e3, a3, c3, d3⟩ := q 4 (by norm_num) (by norm_num)
  obtain ⟨v4, e4, a4, c4, d4⟩ := q 2 (by norm_num) (by norm_num)
  have m12 : v1 ≤ v2 := round64_mono d1 d2 (by push_cast; linarith)
  have m23 : v2 ≤ v3 := round64_mono d2 d3 (by push_cast; linarith)
  have m34 : v3 ≤ v4 := round64_mono d3 d4 (by push_cast; linarith)
  obtain ⟨h1, p1, o1⟩ := up a1 c1
  obtain ⟨h2, p2, -⟩ := up a2 c2
  obtain ⟨h3, p3, -⟩ := up a3 c3
  obtain ⟨h4, p4, -⟩ := up a4 c4
  obtain ⟨l1, q1, o2⟩ := dn a1 c1
  obtain ⟨l2, q2, -⟩ := dn a2 c2
  obtain ⟨l3, q3, -⟩ := dn a3 c3
  obtain ⟨l4, q4, -⟩ := dn a4 c4
  have hcl := hc.cl i
  exact ⟨h1, h2, h3, h4, l1, l2, l3, l4, (B64.val_add hcl e1).trans p1, (B64.val_add hcl e2).trans p2,
    (B64.val_add hcl e3).trans p3, (B64.val_add hcl e4).trans p4, (B64.val_sub hcl e1).trans q1,
    (B64.val_sub hcl e2).trans q2, (B64.val_sub hcl e3).trans q3, (B64.val_sub hcl e4).trans q4,
    round64_mono q4 q3 (by linarith), round64_mono q3 q2 (by linarith), round64_mono q2 q1 (by linarith), o2, o1,
    round64_mono p1 p2 (by linarith), round64_mono p2 p3 (by linarith), round64_mono p3 p4 (by linarith)⟩

/-- The hypotheses of the four theorems hold for a series whose records are all there. -/
example : Holds64 (item64 bars64) bars64 ∧ Sane64 bars64 ∧
    ((Donchian 2).data (item64 bars64)).map (List.map fun r => (r.upper.val, r.middle.val, r.lower.val)) =
      .ok [(.fin (3 / 2), .fin (3 / 2), .fin (3 / 2)), (.fin (9 / 4), .fin (15 / 8), .fin (3 / 2)),
        (.fin (9 / 4), .fin (17 / 8), .fin 2)] ∧
    ((ATR 2).data (item64 bars64)).map (List.length) = .ok 3 ∧
    ((Keltner 2).data (item64 bars64)).map (List.length) = .ok 3 ∧
    ((Camarilla 2).data (item64 bars64)).map (List.length) = .ok 3 :=
  ⟨bars64_holds, bars64_sane, by decide +kernel, by decide +kernel, by decide +kernel, by decide +kernel⟩

end Verif.Props
