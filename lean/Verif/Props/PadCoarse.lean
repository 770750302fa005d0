import Verif.Props.KlinePad

/-!
# C151: coarser candles made of a series with filled gaps

`addPadding` fills gaps with candles whose prices are 0, so that `ConvertToNewInterval` accepts the series. What the coarser candles then
say: the proof follows that of C15, without its assumption that no low is 0.
-/

set_option linter.unusedSectionVars false

namespace Verif.Props
open Verif Verif.Klines GoFloat XF

variable {K : Type} [Field K] [LinearOrder K] [IsStrictOrderedRing K]

/-- `y` is the smallest of `l lo, .., l (hi-1)` since the last of them that is 0; it is 0 if the very last is. -/
def LowSinceGap (l : Nat → K) (lo hi : Nat) (y : K) : Prop :=
  (l (hi - 1) = 0 → y = 0) ∧
  (l (hi - 1) ≠ 0 → ∃ s, lo ≤ s ∧ s < hi ∧ (∀ i, s ≤ i → i < hi → l i ≠ 0) ∧ (s = lo ∨ l (s - 1) = 0) ∧ IsMinOn l s hi y)

theorem isMinOn_one (l : Nat → K) (lo : Nat) : IsMinOn l lo (lo + 1) (l lo) := by
  refine ⟨⟨lo, by omega, by omega, rfl⟩, ?_⟩
  rintro z ⟨i, i1, i2, rfl⟩
  rw [show i = lo by omega]

theorem LowSinceGap.first (l : Nat → K) (lo : Nat) : LowSinceGap l lo (lo + 1) (l lo) := by
  refine ⟨fun h => h, fun h => ⟨lo, le_refl _, by omega, fun i h1 h2 => ?_, .inl rfl, isMinOn_one l lo⟩⟩
  rw [show i = lo by omega]
  exact h

theorem LowSinceGap.nonneg {l : Nat → K} {lo hi : Nat} {y : K} (h : LowSinceGap l lo hi y) (hl : ∀ i, 0 ≤ l i) : 0 ≤ y := by
  by_cases g : l (hi - 1) = 0
  · rw [h.1 g]
  · obtain ⟨s, -, -, -, -, ⟨i, -, -, rfl⟩, -⟩ := h.2 g
    exact hl i

theorem LowSinceGap.step {l : Nat → K} {lo hi : Nat} {y : K} (h : LowSinceGap l lo hi y) (hl : ∀ i, 0 ≤ l i) (hlt : lo < hi) :
    LowSinceGap l lo (hi + 1) (if y = 0 ∨ l hi < y then l hi else y) := by
  have h0 := h.nonneg hl
  constructor
  · intro g
    rw [Nat.add_sub_cancel] at g
    rw [g]
    split_ifs with c
    · rfl
    · rw [not_or, not_lt] at c
      exact le_antisymm c.2 h0
  · intro g
    rw [Nat.add_sub_cancel] at g
    by_cases z : l (hi - 1) = 0
    · rw [if_pos (.inl (h.1 z))]
      refine ⟨hi, by omega, by omega, fun i h1 h2 => ?_, .inr z, isMinOn_one l hi⟩
      rw [show i = hi by omega]
      exact g
    · obtain ⟨s, s1, s2, s3, s4, s5⟩ := h.2 z
      have hy : y ≠ 0 := by
        obtain ⟨i, i1, i2, rfl⟩ := s5.1
        exact s3 i i1 i2
      refine ⟨s, s1, by omega, fun i h1 h2 => ?_, s4, ?_⟩
      · rcases Nat.lt_or_ge i hi with c | c
        · exact s3 i h1 c
        · rw [show i = hi by omega]; exact g
      · have := s5.step (by omega)
        simpa only [hy, false_or] using this

/-- The coarse candle `b` for the candles `lo .. lo+r-1`, with high and low taken over `lo .. hi-1`. -/
structure GapBucket (o h l c v : Nat → K) (lo r hi : Nat) (t : Int) (b : Candle (XF K)) : Prop where
  time : b.timeUnix = t
  open_ : b.open_ = .fin (o lo)
  close : b.close = .fin (c (lo + r - 1))
  high : ∃ y, b.high = .fin y ∧ IsMaxOn h lo hi y
  low : ∃ y, b.low = .fin y ∧ LowSinceGap l lo hi y
  volume : b.volume = .fin (∑ i ∈ Finset.Ico lo (lo + r), v i)
  change : o lo ≠ 0 → b.changePercent = .fin ((c (lo + r - 1) - o lo) / o lo)
  change_inf : o lo = 0 → 0 < c (lo + r - 1) → b.changePercent = .pinf
  change_ninf : o lo = 0 → c (lo + r - 1) < 0 → b.changePercent = .ninf
  change_nan : o lo = 0 → c (lo + r - 1) = 0 → b.changePercent = .nan
  bull : b.isBull = decide (o lo < c (lo + r - 1))
  amount : b.amount = .fin 0
  count : b.count = 0

/-- What a bucket looks like after merging `k >= 1` candles. -/
theorem bucketRun_gaps (cd : Nat → Candle (XF K)) (o h l c v : Nat → K) (lo r n : Nat) (s T : Int)
    (hs : 0 < s) (hr : 2 ≤ r) (hp : ∀ i, lo + i < n → Priced (cd (lo + i)) (T + i * s) (o (lo + i)) (h (lo + i))
      (l (lo + i)) (c (lo + i)) (v (lo + i))) (hl : ∀ i, 0 ≤ l i) (k : Nat) (hk : 1 ≤ k) (hkn : lo + k ≤ n) :
    let b := bucketRun s (r * s) cd lo (Candle.zero T) k
    b.timeUnix = T ∧ b.open_ = .fin (o lo) ∧ (∃ y, b.high = .fin y ∧ IsMaxOn h lo (lo + k) y) ∧
      (∃ y, b.low = .fin y ∧ LowSinceGap l lo (lo + k) y) ∧
      b.volume = .fin (∑ i ∈ Finset.Ico lo (lo + min k r), v i) ∧
      (r ≤ k → b.close = .fin (c (lo + r - 1)) ∧
        b.changePercent = (.fin (c (lo + r - 1)) -. .fin (o lo)) /. .fin (o lo) ∧
        b.isBull = decide (o lo < c (lo + r - 1))) ∧
      (k < r → b.isBull = false) ∧ b.amount = .fin 0 ∧ b.count = 0 := by
  have hz : ((fl 0 : XF K)) = .fin 0 := by rw [fl_fin]; simp
  induction k, hk using Nat.le_induction with
  | base =>
    have p := hp 0 (by omega)
    simp only [Nat.cast_zero, zero_mul, add_zero] at p
    have hrun : bucketRun s (r * s) cd lo (Candle.zero T) 1 = mergeCandle s (r * s) (cd lo) (Candle.zero T) := rfl
    have hne : s ≠ (r : Int) * s := by
      have : 2 * s ≤ (r : Int) * s := Int.mul_le_mul_of_nonneg_right (by omega) (by omega)
      omega
    have := merge_first s (r * s) (cd lo) hne (by rw [hz]; simp [eq_fin])
    rw [p.time] at this
    rw [hrun, this]
    refine ⟨rfl, p.open_, ⟨h lo, p.high, ⟨lo, by omega, by omega, rfl⟩, ?_⟩,
      ⟨l lo, p.low, LowSinceGap.first l lo⟩, ?_, by omega, fun _ => rfl, hz, rfl⟩
    · rintro z ⟨i, i1, i2, rfl⟩
      rw [show i = lo by omega]
    · simp only [hz, p.volume, add_fin]
      rw [show min 1 r = 1 by omega]
      simp
  | succ k hk ih =>
    obtain ⟨h1, h2, ⟨y, h3, h3'⟩, ⟨w, h4, h4'⟩, h5, h6, h7, h8, h9⟩ := ih (by omega)
    have p := hp k (by omega)
    have hpos : 0 < (k : Int) * s := Int.mul_pos (by omega) hs
    have hmul : ∀ {a b : Nat}, a < b ↔ (a : Int) * s < (b : Int) * s := by
      intro a b
      constructor
      · intro h; exact Int.mul_lt_mul_of_pos_right (by omega) hs
      · intro h
        have := Int.lt_of_mul_lt_mul_right h (by omega)
        omega
    rw [bucketRun, merge_later _ _ _ _ (by rw [h1, p.time]; omega)]
    set b := bucketRun s (r * s) cd lo (Candle.zero T) k with hb
    have c1 : (T + (k : Int) * s < T + (r : Int) * s) ↔ k < r := by
      rw [hmul (a := k) (b := r)]; omega
    have c2 : (T + (k : Int) * s + s = T + (r : Int) * s) ↔ k + 1 = r := by
      constructor
      · intro h
        have h' : ((k + 1 : Nat) : Int) * s = (r : Int) * s := by push_cast; rw [add_mul]; omega
        have := Int.eq_of_mul_eq_mul_right (by omega) h'
        exact_mod_cast this
      · rintro rfl
        push_cast; ring
    simp only [h1, h2, h3, h4, h5, p.time, p.high, p.low, p.close, p.volume, c1, c2, hz]
    refine ⟨trivial, trivial, ⟨_, ?_, h3'.step (by omega)⟩, ⟨_, ?_, h4'.step hl (by omega)⟩, ?_, ?_, ?_, h8, h9⟩
    · simp only [GoFloat.gt, lt_fin, decide_eq_true_eq]
      split <;> rfl
    · simp only [lt_fin, eq_fin, decide_eq_true_eq]
      split <;> rfl
    · by_cases hkr : k < r
      · rw [if_pos hkr, show min (k + 1) r = k + 1 by omega, show min k r = k by omega, add_fin,
          ← Nat.add_assoc, Finset.sum_Ico_succ_top (by omega)]
      · rw [if_neg hkr, show min (k + 1) r = min k r by omega]
    · intro hrk
      by_cases hkr : k + 1 = r
      · subst hkr
        have hbull := h7 (by omega)
        simp only [if_true, true_and, GoFloat.gt, lt_fin, decide_eq_true_eq, hbull,
          show lo + (k + 1) - 1 = lo + k by omega]
        by_cases hc : o lo < c (lo + k) <;> simp [hc]
      · obtain ⟨a1, a2, a3⟩ := h6 (by omega)
        simp only [hkr, if_false, false_and]
        exact ⟨a1, a2, a3⟩
    · intro hlt
      rw [if_neg (by omega)]
      exact h7 (by omega)

/-- **C151.** For every gap-free series - such as a padded one, whose empty candles have prices 0 - of finite prices with no negative
low, that starts aligned to the new interval: `ConvertToNewInterval` succeeds, and a coarse candle has the first open, the last
close, the highest high and the sum of the volumes of its candles, empty ones included: the open is 0 if the first candle is empty, the
close if the last one is. Its low is the lowest since the last empty candle, and 0 if the last candle is empty. Its change
is `(close - open) / open`, which after an empty first candle is `+Inf`, or NaN if the last candle is empty too. (The high and low of
the last coarse candle range over the left-over candles as well, as in C15.) -/
theorem C151_gaps (now : Int) (e : Item (XF K)) (n r : Nat) (o h l c v : Nat → K)
    (hn : e.candles.length = n) (hi : 0 < e.interval) (hr : 2 ≤ r) (hrn : r ≤ n) (t0 : Int) (ht0 : 0 < t0)
    (hgap : ∀ (x : Nat) (b : Candle (XF K)), e.candles[x]? = some b →
      ofUnix b.timeUnix = ofUnix t0 + x * e.interval)
    (hprice : ∀ (x : Nat) (b : Candle (XF K)), e.candles[x]? = some b →
      Priced b b.timeUnix (o x) (h x) (l x) (c x) (v x))
    (hl : ∀ x, 0 ≤ l x) (halign : r * e.interval ∣ ofUnix t0 + zeroOffset) :
    ∃ it, ConvertToNewInterval now (some e) (r * e.interval) = .ok (.ok it) ∧
      it.exchange = e.exchange ∧ it.interval = r * e.interval ∧ it.candles.length = n / r ∧
      ∀ (j : Nat) (b : Candle (XF K)), it.candles[j]? = some b →
        GapBucket o h l c v (j * r) r (if j + 1 = n / r then n else j * r + r)
          (t0 + j * unix (r * e.interval)) b := by
  obtain ⟨cd, hcd⟩ := exists_tabCandles e.candles
  rw [hn] at hcd
  have hgap' : ∀ x, x < n → ofUnix (cd x).timeUnix = ofUnix t0 + x * e.interval :=
    fun x hx => hgap x _ (by rw [hcd, tab_getElem?_lt hx])
  have hprice' : ∀ x, x < n → Priced (cd x) (cd x).timeUnix (o x) (h x) (l x) (c x) (v x) :=
    fun x hx => hprice x _ (by rw [hcd, tab_getElem?_lt hx])
  -- the interval is a whole number of seconds
  obtain ⟨s, hsv⟩ : ∃ s : Int, e.interval = s * nsec := by
    have h1 := hgap' 1 (by omega)
    refine ⟨(cd 1).timeUnix - t0, ?_⟩
    unfold ofUnix at h1
    rw [sub_mul, h1]; simp
  have hnp : (0 : Int) < nsec := by decide
  have hs : 0 < s := by
    by_contra hneg
    have := Int.mul_le_mul_of_nonneg_right (show s ≤ 0 by omega) (le_of_lt hnp)
    omega
  have htime : ∀ x, x < n → (cd x).timeUnix = t0 + x * s := by
    intro x hx
    have h1 := hgap' x hx
    unfold ofUnix at h1
    rw [hsv] at h1
    refine Int.eq_of_mul_eq_mul_right (a := nsec) (by omega) ?_
    rw [h1]; ring
  have hri : e.interval < (r : Int) * e.interval := by
    have : 2 * e.interval ≤ (r : Int) * e.interval := Int.mul_le_mul_of_nonneg_right (by omega) (by omega)
    omega
  have hst0 : (cd 0).timeUnix = t0 := by rw [htime 0 (by omega)]; simp
  have hstop : ofUnix (cd (n - 1)).timeUnix + e.interval = ofUnix t0 + n * e.interval := by
    rw [hgap' (n - 1) (by omega)]
    have : ((n - 1 : Nat) : Int) = n - 1 := by omega
    rw [this]; ring
  have hpos : 0 < ofUnix t0 := Int.mul_pos ht0 hnp
  have hnpos : 0 < (n : Int) * e.interval := Int.mul_pos (by omega) hi
  have hzt : zeroTime < 0 := by decide
  have hm1 : 1 ≤ n / r := Nat.div_pos hrn (by omega)
  -- evaluate
  rw [convert_eq now e _ n r cd hi hri rfl (by omega) hcd, hstop, hst0]
  have hw : ofUnix t0 + (n : Int) * e.interval - ofUnix t0 = n * e.interval := by ring
  rw [hw, Int.mul_tdiv_cancel _ (by omega), if_neg (by simp), if_neg (by omega)]
  have hchk : StartEndTimeCheck now (ofUnix t0) (ofUnix t0 + n * e.interval) = .ok () ∨
      StartEndTimeCheck now (ofUnix t0) (ofUnix t0 + n * e.interval) = .error .startAfterNow := by
    unfold StartEndTimeCheck
    rw [if_neg (by omega), if_neg (by omega), if_neg (by omega), if_neg (by omega)]
    split <;> simp
  obtain ⟨N, L, k, hN, hL1, hL2, hx, hk1, hcov, hk0, htight, hcalc⟩ :=
    calc_eq now _ _ (r * e.interval) 100000 hchk (by omega)
  have hflat := flat_ranges (roundT (r * e.interval) (ofUnix t0)) (r * e.interval) N L k hx
  rw [show min (k * L) N = N by have := hcov (by omega); omega] at hflat
  have hmr : ((n / r : Nat) : Int) * (r * e.interval) ≤ (n : Int) * e.interval := by
    rw [← mul_assoc]
    refine Int.mul_le_mul_of_nonneg_right ?_ (by omega)
    exact_mod_cast Nat.div_mul_le_self n r
  have hmN : n / r ≤ N := enough_intervals (by omega) (by omega) hN
  rw [hcalc, ok_bind]
  simp only
  rw [assignRanges_eq _ _ N (n / r) hflat hmN, ok_bind]
  simp only
  have hround : roundT (r * e.interval) (ofUnix t0) = ofUnix t0 := roundT_aligned (by omega) halign
  have hstamp : (tab (n / r) fun j => some (Candle.zero (F := XF K)
        (unix (ivAt (roundT (r * e.interval) (ofUnix t0)) (r * e.interval) j).start.time)))
      = tab (n / r) fun j => some (Candle.zero (t0 + (j * r : Nat) * s)) := by
    refine tab_ext fun j hj => ?_
    congr 2
    rw [hround]
    simp only [ivAt, CreateIntervalTime]
    unfold ofUnix unix
    rw [hsv, show t0 * nsec + (j : Int) * ((r : Int) * (s * nsec)) = (t0 + ((j * r : Nat) : Int) * s) * nsec by
      push_cast; ring, Int.mul_ediv_cancel _ (by omega)]
  rw [hstamp]
  have hsec1 : wholeSeconds e.interval = s := by
    rw [wholeSeconds, hsv, Int.mul_tdiv_cancel _ (by omega)]
  have hsec2 : wholeSeconds (r * e.interval) = r * s := by
    rw [wholeSeconds, hsv, ← mul_assoc, Int.mul_tdiv_cancel _ (by omega)]
  rw [hsec1, hsec2]
  obtain ⟨t, hloop⟩ := convertLoop_aligned n r (n / r) s t0 cd hs (by omega) rfl hm1 htime s (r * s)
  rw [hloop, ok_bind]
  simp only
  rw [allSlots_tab]
  refine ⟨_, rfl, rfl, rfl, by simp [newItem], ?_⟩
  intro j b hb
  simp only [newItem] at hb
  have hj : j < n / r := by
    by_contra hc
    rw [tab_getElem?, if_neg hc] at hb; cases hb
  rw [tab_getElem?_lt hj] at hb
  cases hb
  have hjr : (j + 1) * r ≤ n := le_trans (Nat.mul_le_mul_right _ hj) (Nat.div_mul_le_self n r)
  have hjr' : (j + 1) * r = j * r + r := by ring
  set cnt := if j + 1 = n / r then n - j * r else r with hcnt
  have hcr : r ≤ cnt := by rw [hcnt]; split <;> omega
  have hcn : j * r + cnt ≤ n := by rw [hcnt]; split <;> omega
  have hhi : (if j + 1 = n / r then n else j * r + r) = j * r + cnt := by rw [hcnt]; split <;> omega
  obtain ⟨b1, b2, b3, b4, b5, b6, _, b8, b9⟩ := bucketRun_gaps cd o h l c v (j * r) r n s
    (t0 + (j * r : Nat) * s) hs hr (fun i hi' => by
      have p := hprice' (j * r + i) hi'
      rw [htime _ hi'] at p
      have : t0 + ((j * r + i : Nat) : Int) * s = t0 + ((j * r : Nat) : Int) * s + (i : Int) * s := by
        push_cast; ring
      rw [this] at p
      exact p) hl cnt (by omega) hcn
  obtain ⟨d1, d2, d3⟩ := b6 hcr
  rw [hhi]
  refine ⟨?_, b2, d1, b3, b4, ?_, ?_, ?_, ?_, ?_, d3, b8, b9⟩
  · rw [b1]
    unfold unix
    rw [hsv, ← mul_assoc, Int.mul_ediv_cancel _ (by omega)]
    push_cast; ring
  · rw [b5, show min cnt r = r by omega]
  · intro ho
    rw [d2, sub_fin, div_fin ho]
  · intro ho hc
    rw [d2, sub_fin, div_fin_eq, if_pos ho, ho, sub_zero, infSign, if_pos hc]
  · intro ho hc
    rw [d2, sub_fin, div_fin_eq, if_pos ho, ho, sub_zero, infSign, if_neg (not_lt.2 hc.le), if_pos hc]
  · intro ho hc
    rw [d2, sub_fin, div_fin_eq, if_pos ho, ho, hc, sub_zero]
    simp [infSign]

/-- Six minutes of which the second, the fourth and the last are missing. -/
def gappyMinutes : Item (XF ℚ) where
  exchange := "x"
  interval := 60 * nsec
  symbol := ""
  code := ""
  candles := [candleOf 180 6 8 5 7 1, candleOf 300 9 12 8 10 2, candleOf 420 10 11 7 9 4]

/-- `gappyMinutes` after padding. -/
def filledMinutes : Item (XF ℚ) :=
  { gappyMinutes with
    candles := [candleOf 180 6 8 5 7 1, Candle.zero 240, candleOf 300 9 12 8 10 2, Candle.zero 360, candleOf 420 10 11 7 9 4,
      Candle.zero 480] }

example : ∃ it, ConvertToNewInterval 0 (some filledMinutes) ((3 : Nat) * (60 * nsec)) = .ok (.ok it) ∧ it.candles.length = 2 := by
  obtain ⟨it, h1, _, _, h2, _⟩ := C151_gaps 0 filledMinutes 6 3
    (fun i => [6, 0, 9, 0, 10].getD i 0) (fun i => [8, 0, 12, 0, 11].getD i 0)
    (fun i => [5, 0, 8, 0, 7].getD i 0) (fun i => [7, 0, 10, 0, 9].getD i 0)
    (fun i => [1, 0, 2, 0, 4].getD i 0) rfl (by decide) (by decide) (by decide) 180 (by decide)
    (by
      intro x b hx
      match x, hx with
      | 0, hx | 1, hx | 2, hx | 3, hx | 4, hx | 5, hx => cases hx; rfl)
    (by
      intro x b hx
      match x, hx with
      | 0, hx | 2, hx | 4, hx => cases hx; exact ⟨rfl, rfl, rfl, rfl, rfl, rfl⟩
      | 1, hx | 3, hx | 5, hx =>
        cases hx
        constructor <;> rfl)
    (by
      intro x
      match x with
      | 0 | 1 | 2 | 3 | 4 => norm_num
      | x + 5 => simp)
    (by decide)
  exact ⟨it, h1, h2⟩

/-- **The low of a padded bucket is not the low of its trades.** Padding `gappyMinutes` and upscaling to three minutes: the first candle
reports the low 8, though the first minute traded at 5, and the second has open, low and close 0 and a change that is no number, though the only
trades in it were between 7 and 11. -/
theorem C151_low_refuted :
    (match addPadding (some gappyMinutes) (ofUnix 180) (540 * nsec) false with
      | .ok (.ok e) =>
        match ConvertToNewInterval 0 (some e) (180 * nsec) with
        | .ok (.ok it) => it.candles.map (fun b => (b.timeUnix, [b.open_, b.high, b.low, b.close, b.volume, b.changePercent]))
        | _ => []
      | _ => []) =
      [(180, [.fin 6, .fin 12, .fin 8, .fin 10, .fin 3, .fin (2 / 3)]), (360, [.fin 0, .fin 11, .fin 0, .fin 0, .fin 4, .nan])] := by
  decide +kernel

end Verif.Props
