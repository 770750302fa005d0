import Verif.Klines.Convert
import Verif.Props.KlineRanges
import Verif.Props.KlineTech
import Mathlib.Order.Bounds.Basic

/-!
# C15, C16: upscaling candles
-/

set_option linter.unusedSectionVars false

namespace Verif.Props
open Verif Verif.Klines GoFloat XF

variable {F : Type} [GoFloat F] {K : Type} [Field K] [LinearOrder K] [IsStrictOrderedRing K]

/-! ## C16 -/

/-- The instant is unset for `StartEndTimeCheck`: the zero time or the Unix epoch. -/
def unset (t : Int) : Prop := t = zeroTime ∨ t = 0

theorem exists_tabCandles (l : List (Candle F)) : ∃ c : Nat → Candle F, l = tab l.length c :=
  ⟨fun i => (l[i]?).getD (Candle.zero 0), eq_tab_of_forall rfl fun i hi => by
    rw [List.getElem?_eq_getElem hi]; rfl⟩

/-- The item returned by the conversion: the exchange of the old item and the new interval; symbol and
code are dropped. -/
def newItem (e : Item F) (ni : Int) (cs : List (Candle F)) : Item F where
  exchange := e.exchange
  interval := ni
  symbol := ""
  code := ""
  candles := cs

/-- The conversion of a non-empty series with a valid pair of intervals, up to the ranges. -/
theorem convert_eq (now : Int) (e : Item F) (ni : Int) (n r : Nat) (c : Nat → Candle F)
    (hi : 0 < e.interval) (hlt : e.interval < ni) (hr : ni = r * e.interval) (hn : 1 ≤ n)
    (hc : e.candles = tab n c) :
    ConvertToNewInterval now (some e) ni =
      if (ofUnix (c (n - 1)).timeUnix + e.interval - ofUnix (c 0).timeUnix).tdiv e.interval ≠ n then
        .ok (.error .notPadded)
      else if n / r = 0 then .ok (.error .insufficientData)
      else (do
        let h ← CalculateCandleDateRanges now (ofUnix (c 0).timeUnix)
          (ofUnix (c (n - 1)).timeUnix + e.interval) ni ((100000 : Nat) : Int)
        match h with
        | .error _ => .error (.explicit "CalculateCandleDateRanges")
        | .ok h =>
          let (candles, _) ← assignRanges h.ranges (List.replicate (n / r) (none : Option (Candle F)), 0)
          let (candles, _, _) ← goFor 0 (tab n c).length (candles, (0 : Int), false)
            (convertStep (tab n c) (wholeSeconds e.interval) (wholeSeconds ni) r)
          match allSlots candles with
          | none => .error .nilDeref
          | some cs => .ok (.ok (newItem e ni cs))) := by
  unfold ConvertToNewInterval
  simp only
  rw [if_neg (by omega), if_neg (by omega), if_neg (by omega)]
  have hmod : goMod ni e.interval = .ok 0 := by
    rw [goMod, if_neg (by omega), hr, Int.mul_tmod_left]
  have hdiv : goDiv ni e.interval = .ok (r : Int) := by
    rw [goDiv, if_neg (by omega), hr, Int.mul_tdiv_cancel _ (by omega)]
  have hr0 : r ≠ 0 := by
    rintro rfl
    simp at hr; omega
  have hdiv2 : goDiv (n : Int) (r : Int) = .ok ((n / r : Nat) : Int) := by
    rw [goDiv, if_neg (by exact_mod_cast hr0)]
    rw [Int.tdiv_eq_ediv_of_nonneg (by omega)]; rfl
  have hdiv3 : goDiv (ofUnix (c (n - 1)).timeUnix + e.interval - ofUnix (c 0).timeUnix) e.interval
      = .ok ((ofUnix (c (n - 1)).timeUnix + e.interval - ofUnix (c 0).timeUnix).tdiv e.interval) := by
    rw [goDiv, if_neg (by omega)]
  rw [hmod, ok_bind, if_neg (by simp), hc]
  have h0 : idx (tab n c) 0 = .ok (c 0) := idx_tab (i := 0) (by omega)
  have h1 : idx (tab n c) (((tab n c).length : Int) - 1) = .ok (c (n - 1)) := by
    rw [tab_length, show ((n : Int) - 1) = ((n - 1 : Nat) : Int) by omega]
    exact idx_tab (by omega)
  rw [h0, ok_bind, h1, ok_bind, hdiv3, ok_bind]
  simp only [tab_length, pure_eq_ok]
  by_cases ha : (ofUnix (c (n - 1)).timeUnix + e.interval - ofUnix (c 0).timeUnix).tdiv e.interval ≠ (n : Int)
  · rw [if_pos ha, if_pos ha]
  · rw [if_neg ha, if_neg ha, hdiv, ok_bind, hdiv2, ok_bind, mk_nat, ok_bind]
    by_cases hb : n / r = 0
    · rw [if_pos (by simp [hb]), if_pos hb]
    · rw [if_neg (by rw [List.length_replicate]; exact_mod_cast hb), if_neg hb]
      rfl

/-- What a good request is: positive intervals, the new one a strictly larger whole multiple of the
old one, as many candles as the time span between first and last candle asks for, and enough of them
for one new candle. -/
def GoodRequest (e : Item F) (first last : Candle F) (ni : Int) : Prop :=
  0 < e.interval ∧ e.interval < ni ∧ e.interval ∣ ni ∧
    (ofUnix last.timeUnix + e.interval - ofUnix first.timeUnix).tdiv e.interval = e.candles.length ∧
    ni ≤ e.candles.length * e.interval

/-- **C16 (partial).** For every non-empty series whose first instant and end are set, every interval
pair and every float type, `ConvertToNewInterval` never panics; it succeeds exactly on good requests,
and the error names the first condition that fails. The nil item is an error too.
Missing from C16: empty series and unset instants panic, and gaps that a duplicate candle balances
are not noticed (theorems below). -/
theorem C16_errors_partial (now : Int) (e : Item F) (ni : Int) (first last : Candle F)
    (hfirst : e.candles.head? = some first) (hlast : e.candles.getLast? = some last)
    (hset : ¬ unset (ofUnix first.timeUnix) ∧ ¬ unset (ofUnix last.timeUnix + e.interval)) :
    ConvertToNewInterval now (none : Option (Item F)) ni = .ok (.error .nilKline) ∧
    ∃ res, ConvertToNewInterval now (some e) ni = .ok res ∧
      ((∃ it, res = .ok it) ↔ GoodRequest e first last ni) ∧
      (e.interval ≤ 0 ∨ ni ≤ 0 → res = .error .invalidInterval) ∧
      (0 < e.interval → 0 < ni → ni ≤ e.interval → res = .error .canOnlyUpscale) ∧
      (0 < e.interval → e.interval < ni → ¬ e.interval ∣ ni → res = .error .wholeNumberScaling) ∧
      (0 < e.interval → e.interval < ni → e.interval ∣ ni →
        (ofUnix last.timeUnix + e.interval - ofUnix first.timeUnix).tdiv e.interval ≠ e.candles.length →
        res = .error .notPadded) ∧
      (0 < e.interval → e.interval < ni → e.interval ∣ ni →
        (ofUnix last.timeUnix + e.interval - ofUnix first.timeUnix).tdiv e.interval = e.candles.length →
        e.candles.length * e.interval < ni → res = .error .insufficientData) := by
  refine ⟨rfl, ?_⟩
  have mk1 : ∀ {er : KErr}, ConvertToNewInterval now (some e) ni = .ok (.error er) →
      ¬ GoodRequest e first last ni →
      ∃ res, ConvertToNewInterval now (some e) ni = .ok res ∧
        ((∃ it, res = .ok it) ↔ GoodRequest e first last ni) ∧ res = .error er := by
    intro er h1 h2
    exact ⟨_, h1, ⟨fun ⟨it, h⟩ => (by cases h), fun h => absurd h h2⟩, rfl⟩
  by_cases h1 : e.interval ≤ 0 ∨ ni ≤ 0
  · obtain ⟨res, a, b, rfl⟩ := mk1 (er := .invalidInterval) (by
      unfold ConvertToNewInterval
      simp only
      rcases h1 with h | h
      · rw [if_pos h]; rfl
      · by_cases h' : e.interval ≤ 0
        · rw [if_pos h']; rfl
        · rw [if_neg h', if_pos h]; rfl) (fun h => by unfold GoodRequest at h; omega)
    exact ⟨_, a, b, fun _ => rfl, by omega, by omega, by omega, by omega⟩
  · have hi : 0 < e.interval := by omega
    by_cases h2 : ni ≤ e.interval
    · obtain ⟨res, a, b, rfl⟩ := mk1 (er := .canOnlyUpscale) (by
        unfold ConvertToNewInterval
        simp only
        rw [if_neg (by omega), if_neg (by omega), if_pos h2]; rfl)
        (fun h => by unfold GoodRequest at h; omega)
      exact ⟨_, a, b, by omega, fun _ _ _ => rfl, by omega, by omega, by omega⟩
    · by_cases h3 : e.interval ∣ ni
      · obtain ⟨q, hq⟩ := id h3
        have hq0 : 0 ≤ q := by
          by_contra hneg
          have := Int.mul_le_mul_of_nonneg_left (show q ≤ 0 by omega) (le_of_lt hi)
          omega
        obtain ⟨r, rfl⟩ := Int.eq_ofNat_of_zero_le hq0
        have hr : ni = (r : Int) * e.interval := by rw [hq]; ring
        have hr0 : 0 < r := by
          rcases Nat.eq_zero_or_pos r with rfl | h
          · simp at hr; omega
          · exact h
        obtain ⟨c, hc⟩ := exists_tabCandles e.candles
        generalize hn : e.candles.length = n at hc
        have hn1 : 1 ≤ n := by
          rcases Nat.eq_zero_or_pos n with rfl | h
          · rw [List.length_eq_zero_iff.mp hn] at hfirst; cases hfirst
          · exact h
        have hf : first = c 0 := by
          rw [hc, List.head?_eq_getElem?, tab_getElem?_lt (by omega)] at hfirst
          exact (Option.some.inj hfirst).symm
        have hl : last = c (n - 1) := by
          rw [hc, List.getLast?_eq_getElem?, tab_length, tab_getElem?_lt (by omega)] at hlast
          exact (Option.some.inj hlast).symm
        subst hf hl
        have heq := convert_eq now e ni n r c hi (by omega) hr hn1 hc
        have hsmall : n / r = 0 ↔ (n : Int) * e.interval < ni := by
          rw [Nat.div_eq_zero_iff_lt hr0, hr]
          constructor
          · intro h; exact Int.mul_lt_mul_of_pos_right (by omega) hi
          · intro h
            have := Int.lt_of_mul_lt_mul_right h (by omega)
            omega
        by_cases h4 : (ofUnix (c (n - 1)).timeUnix + e.interval - ofUnix (c 0).timeUnix).tdiv e.interval ≠ (n : Int)
        · rw [if_pos h4] at heq
          obtain ⟨res, a, b, rfl⟩ := mk1 heq (fun h => by
            unfold GoodRequest at h; rw [hn] at h; exact h4 h.2.2.2.1)
          exact ⟨_, a, b, by omega, by omega, fun _ _ h => absurd h3 h, fun _ _ _ _ => rfl,
            fun _ _ _ h => absurd h h4⟩
        · rw [if_neg h4] at heq
          by_cases h5 : n / r = 0
          · rw [if_pos h5] at heq
            have := hsmall.mp h5
            obtain ⟨res, a, b, rfl⟩ := mk1 heq (fun h => by unfold GoodRequest at h; rw [hn] at h; omega)
            exact ⟨_, a, b, by omega, by omega, fun _ _ h => absurd h3 h, fun _ _ _ h => absurd h h4,
              fun _ _ _ _ _ => rfl⟩
          · rw [if_neg h5] at heq
            have h4' : (ofUnix (c (n - 1)).timeUnix + e.interval - ofUnix (c 0).timeUnix).tdiv e.interval
              = (n : Int) := not_not.mp h4
            -- the window
            have hwpos : 0 ≤ ofUnix (c (n - 1)).timeUnix + e.interval - ofUnix (c 0).timeUnix := by
              by_contra hneg
              have h := Int.neg_tdiv (a := ofUnix (c (n - 1)).timeUnix + e.interval - ofUnix (c 0).timeUnix)
                (b := e.interval)
              rw [Int.tdiv_eq_ediv_of_nonneg (by omega)] at h
              have := Int.ediv_nonneg
                (a := -(ofUnix (c (n - 1)).timeUnix + e.interval - ofUnix (c 0).timeUnix))
                (b := e.interval) (by omega) (by omega)
              omega
            have hw : (n : Int) * e.interval ≤ ofUnix (c (n - 1)).timeUnix + e.interval - ofUnix (c 0).timeUnix := by
              rw [Int.tdiv_eq_ediv_of_nonneg hwpos] at h4'
              have := Int.ediv_mul_le (ofUnix (c (n - 1)).timeUnix + e.interval - ofUnix (c 0).timeUnix)
                (b := e.interval) (by omega)
              rw [h4'] at this
              exact this
            have hmr : ((n / r : Nat) : Int) * ni ≤ (n : Int) * e.interval := by
              rw [hr, ← mul_assoc]
              refine Int.mul_le_mul_of_nonneg_right ?_ (by omega)
              exact_mod_cast Nat.div_mul_le_self n r
            have hnpos : 0 < (n : Int) * e.interval := Int.mul_pos (by omega) hi
            have hchk : StartEndTimeCheck now (ofUnix (c 0).timeUnix) (ofUnix (c (n - 1)).timeUnix + e.interval)
                  = .ok () ∨
                StartEndTimeCheck now (ofUnix (c 0).timeUnix) (ofUnix (c (n - 1)).timeUnix + e.interval)
                  = .error .startAfterNow := by
              unfold unset at hset
              unfold StartEndTimeCheck
              rw [if_neg hset.1, if_neg hset.2, if_neg (by omega), if_neg (by omega)]
              split <;> simp
            obtain ⟨N, L, k, hN, hL1, hL2, hx, hk1, hcov, hk0, htight, hcalc⟩ :=
              calc_eq now _ _ ni 100000 hchk (by omega)
            have hflat := flat_ranges (roundT ni (ofUnix (c 0).timeUnix)) ni N L k hx
            rw [show min (k * L) N = N by have := hcov (by omega); omega] at hflat
            have hmN : n / r ≤ N := enough_intervals (by omega) (by omega) hN
            rw [hcalc, ok_bind] at heq
            simp only at heq
            rw [assignRanges_eq _ _ N (n / r) hflat hmN, ok_bind] at heq
            simp only at heq
            obtain ⟨l, t, b, hloop, hlen⟩ := convertLoop_total (tab n c) (wholeSeconds e.interval)
              (wholeSeconds ni) (r : Int)
              (tab (n / r) fun j => some (Candle.zero (F := F)
                (unix (ivAt (roundT ni (ofUnix (c 0).timeUnix)) ni j).start.time)))
              (fun h => h5 (by simpa using congrArg List.length h))
              (by
                intro s hs
                simp only [tab, List.mem_map] at hs
                obtain ⟨_, _, rfl⟩ := hs
                simp)
            rw [hloop, ok_bind] at heq
            simp only at heq
            obtain ⟨l', e1, e2⟩ := exists_slots (l.map some) (by simp)
            rw [e2] at heq
            refine ⟨_, heq, ⟨fun _ => ⟨hi, by omega, h3, by rw [hn]; exact h4', ?_⟩, fun _ => ⟨_, rfl⟩⟩,
              by omega, by omega, fun _ _ h => absurd h3 h, fun _ _ _ h => absurd h4' h, ?_⟩
            · have := hsmall.not.mp h5
              rw [hn]; omega
            · intro _ _ _ _ h
              exact absurd (hsmall.mpr h) h5
      · obtain ⟨res, a, b, rfl⟩ := mk1 (er := .wholeNumberScaling) (by
          unfold ConvertToNewInterval
          simp only
          rw [if_neg (by omega), if_neg (by omega), if_neg h2]
          rw [goMod, if_neg (by omega), ok_bind, if_pos]
          · rfl
          · intro h
            exact h3 (Int.dvd_of_tmod_eq_zero h)) (fun h => h3 h.2.2.1)
        exact ⟨_, a, b, by omega, by omega, fun _ _ _ => rfl, fun _ _ h => absurd h h3,
          fun _ _ h => absurd h h3⟩

/-- **C16 (gaps).** A series in which no two neighbours are closer than one interval and some two are
at least two intervals apart — a missing candle and no duplicate — is rejected as not padded. -/
theorem C16_gap_is_reported (now : Int) (e : Item F) (ni : Int) (hi : 0 < e.interval) (hlt : e.interval < ni)
    (hdvd : e.interval ∣ ni)
    (hstep : ∀ (x : Nat) (a b : Candle F), e.candles[x]? = some a → e.candles[x + 1]? = some b →
      ofUnix a.timeUnix + e.interval ≤ ofUnix b.timeUnix)
    (hgap : ∃ (x : Nat) (a b : Candle F), e.candles[x]? = some a ∧ e.candles[x + 1]? = some b ∧
      ofUnix a.timeUnix + 2 * e.interval ≤ ofUnix b.timeUnix) :
    ConvertToNewInterval now (some e) ni = .ok (.error .notPadded) := by
  obtain ⟨q, hq⟩ := id hdvd
  have hq0 : 0 ≤ q := by
    by_contra hneg
    have := Int.mul_le_mul_of_nonneg_left (show q ≤ 0 by omega) (le_of_lt hi)
    omega
  obtain ⟨r, rfl⟩ := Int.eq_ofNat_of_zero_le hq0
  obtain ⟨c, hc⟩ := exists_tabCandles e.candles
  generalize hn : e.candles.length = n at hc
  obtain ⟨g, a, b, hga, hgb, hgap⟩ := hgap
  rw [hc] at hga hgb hstep
  have hg1 : g + 1 < n := by
    by_contra h
    rw [tab_getElem?, if_neg h] at hgb
    cases hgb
  rw [tab_getElem?_lt (by omega)] at hga hgb
  cases hga; cases hgb
  have hs : ∀ x, x + 1 < n → ofUnix (c x).timeUnix + e.interval ≤ ofUnix (c (x + 1)).timeUnix :=
    fun x hx => hstep x _ _ (tab_getElem?_lt (by omega)) (tab_getElem?_lt hx)
  have hup : ∀ x, x < n → ofUnix (c 0).timeUnix + ((x + (if g < x then 1 else 0) : Nat) : Int) * e.interval
      ≤ ofUnix (c x).timeUnix := by
    intro x hx
    induction x with
    | zero => simp
    | succ x ih =>
      have h1 := ih (by omega)
      have h2 := hs x hx
      by_cases hgx : g = x
      · subst hgx
        rw [if_neg (by omega)] at h1
        rw [if_pos (by omega)]
        push_cast at *
        linarith
      · have : (if g < x + 1 then 1 else 0) = (if g < x then 1 else 0) := by
          by_cases h : g < x
          · rw [if_pos h, if_pos (by omega)]
          · rw [if_neg h, if_neg (by omega)]
        rw [this]
        push_cast at *
        linarith
  rw [convert_eq now e ni n r c hi hlt (by rw [hq]; ring) (by omega) hc, if_pos]
  intro h
  have h1 := hup (n - 1) (by omega)
  rw [if_pos (by omega)] at h1
  have e1 : ((n - 1 + 1 : Nat) : Int) = n := by omega
  rw [e1] at h1
  have hpos : 0 ≤ (n : Int) * e.interval := Int.mul_nonneg (by omega) (by omega)
  rw [Int.tdiv_eq_ediv_of_nonneg (by omega)] at h
  have h2 := Int.lt_ediv_add_one_mul_self
    (ofUnix (c (n - 1)).timeUnix + e.interval - ofUnix (c 0).timeUnix) hi
  rw [h, add_mul] at h2
  omega

/-- A minute series of exact candles at the given times, all prices 2 and volume 1. -/
def flatSeries (times : List Int) : Item (XF ℚ) where
  exchange := "x"
  interval := 60 * nsec
  symbol := ""
  code := ""
  candles := times.map fun t => candleOf t 2 2 2 2 1

/-- A series with a missing minute satisfies the hypotheses of the gap theorem; a whole one converts. -/
example : ConvertToNewInterval 0 (some (flatSeries [120, 180, 300, 360])) (120 * nsec)
      = .ok (.error .notPadded) ∧
    ∃ it, ConvertToNewInterval 0 (some (flatSeries [120, 180, 240, 300])) (120 * nsec) = .ok (.ok it) := by
  constructor
  · rfl
  · obtain ⟨_, res, h1, h2, _⟩ := C16_errors_partial 0 (flatSeries [120, 180, 240, 300]) (120 * nsec)
      (candleOf 120 2 2 2 2 1) (candleOf 300 2 2 2 2 1) rfl rfl (by unfold unset; decide)
    obtain ⟨it, rfl⟩ := h2.mpr (by unfold GoodRequest; decide)
    exact ⟨it, h1⟩

/-- **C16 is false on empty series**: for every valid interval pair the call panics. -/
theorem C16_empty_refuted (now : Int) (e : Item F) (ni : Int) (h : e.candles = []) (hi : 0 < e.interval)
    (hlt : e.interval < ni) (hd : e.interval ∣ ni) :
    ConvertToNewInterval now (some e) ni = .error .index := by
  unfold ConvertToNewInterval
  simp only
  rw [if_neg (by omega), if_neg (by omega), if_neg (by omega), goMod, if_neg (by omega), ok_bind,
    if_neg, h]
  · rfl
  · simpa using Int.tmod_eq_zero_of_dvd hd

/-- **C16 is false for a series that starts at the Unix epoch**: it panics. -/
theorem C16_epoch_refuted :
    ConvertToNewInterval 0 (some (flatSeries [0, 60, 120, 180])) (120 * nsec)
      = .error (.explicit "CalculateCandleDateRanges") := by rfl

/-- **C16 is false for gaps in general**: with minute 3 missing and minute 4 doubled, the conversion
succeeds and the second candle has no close. -/
theorem C16_gap_refuted :
    (match ConvertToNewInterval 0 (some (flatSeries [120, 180, 300, 300])) (120 * nsec) with
      | .ok (.ok it) => it.candles.map (fun b => (b.timeUnix, b.open_, b.close, b.volume))
      | _ => []) = [(120, .fin 2, .fin 2, .fin 2), (240, .fin 0, .fin 0, .fin 0)] := by
  decide +kernel

/-! ## C15 -/

/-- Merging the first candle of a bucket. -/
theorem merge_first (a b : Int) (c : Candle F) (hab : a ≠ b) (h0 : ((fl 0 : F) ==. fl 0) = true) :
    mergeCandle a b c (Candle.zero c.timeUnix) =
      { Candle.zero c.timeUnix with
        open_ := c.open_, high := c.high, low := c.low, volume := fl 0 +. c.volume } := by
  unfold mergeCandle
  simp only [Candle.zero, h0, and_self, true_or, if_true]
  rw [if_neg (by omega)]

/-- Merging a later candle. -/
theorem merge_later (a b : Int) (c t : Candle F) (h : t.timeUnix < c.timeUnix) :
    mergeCandle a b c t =
      { t with
        high := if c.high >. t.high then c.high else t.high
        low := if (t.low ==. fl 0) ∨ (c.low <. t.low) then c.low else t.low
        volume := if c.timeUnix < t.timeUnix + b then t.volume +. c.volume else t.volume
        close := if c.timeUnix + a = t.timeUnix + b then c.close else t.close
        changePercent := if c.timeUnix + a = t.timeUnix + b then (c.close -. t.open_) /. t.open_
          else t.changePercent
        isBull := if c.timeUnix + a = t.timeUnix + b ∧ (c.close >. t.open_) then true else t.isBull } := by
  have hne : ¬ c.timeUnix = t.timeUnix := by omega
  have hgt : c.timeUnix > t.timeUnix := h
  unfold mergeCandle
  simp only [hne, hgt, false_and, if_false, false_or, true_and]
  by_cases h1 : (c.high >. t.high) = true <;> by_cases h2 : ((t.low ==. fl 0) = true ∨ (c.low <. t.low) = true) <;>
    by_cases h3 : c.timeUnix < t.timeUnix + b <;> by_cases h4 : c.timeUnix + a = t.timeUnix + b <;>
    by_cases h5 : (c.close >. t.open_) = true <;> simp [hne, h, h1, h2, h3, h4, h5]

/-- The old candle at instant `t` with finite prices and volume. -/
structure Priced (b : Candle (XF K)) (t : Int) (o h l c v : K) : Prop where
  time : b.timeUnix = t
  open_ : b.open_ = .fin o
  high : b.high = .fin h
  low : b.low = .fin l
  close : b.close = .fin c
  volume : b.volume = .fin v

/-- `y` is the largest of `f lo, .., f (hi-1)`. -/
def IsMaxOn (f : Nat → K) (lo hi : Nat) (y : K) : Prop := IsGreatest {z | ∃ i, lo ≤ i ∧ i < hi ∧ z = f i} y
/-- `y` is the smallest of `f lo, .., f (hi-1)`. -/
def IsMinOn (f : Nat → K) (lo hi : Nat) (y : K) : Prop := IsLeast {z | ∃ i, lo ≤ i ∧ i < hi ∧ z = f i} y

theorem IsMaxOn.step {f : Nat → K} {lo hi : Nat} {y : K} (h : IsMaxOn f lo hi y) (hlo : lo ≤ hi) :
    IsMaxOn f lo (hi + 1) (if y < f hi then f hi else y) := by
  obtain ⟨⟨i, h1, h2, h3⟩, hub⟩ := h
  constructor
  · split
    · exact ⟨hi, hlo, by omega, rfl⟩
    · exact ⟨i, h1, by omega, h3⟩
  · rintro z ⟨j, j1, j2, rfl⟩
    rcases Nat.lt_or_ge j hi with hj | hj
    · have := hub ⟨j, j1, hj, rfl⟩
      split
      · exact le_trans this (le_of_lt (by assumption))
      · exact this
    · have : j = hi := by omega
      subst this
      split
      · exact le_refl _
      · exact not_lt.mp (by assumption)

theorem IsMinOn.step {f : Nat → K} {lo hi : Nat} {y : K} (h : IsMinOn f lo hi y) (hlo : lo ≤ hi) :
    IsMinOn f lo (hi + 1) (if f hi < y then f hi else y) := by
  obtain ⟨⟨i, h1, h2, h3⟩, hub⟩ := h
  constructor
  · split
    · exact ⟨hi, hlo, by omega, rfl⟩
    · exact ⟨i, h1, by omega, h3⟩
  · rintro z ⟨j, j1, j2, rfl⟩
    rcases Nat.lt_or_ge j hi with hj | hj
    · have := hub ⟨j, j1, hj, rfl⟩
      split
      · exact le_trans (le_of_lt (by assumption)) this
      · exact this
    · have : j = hi := by omega
      subst this
      split
      · exact le_refl _
      · exact not_lt.mp (by assumption)

/-- The upscaled candle `b` for the old candles `lo .. lo+r-1`, with high and low taken over
`lo .. hi-1`. -/
structure IsBucket (o h l c v : Nat → K) (lo r hi : Nat) (t : Int) (b : Candle (XF K)) : Prop where
  time : b.timeUnix = t
  open_ : b.open_ = .fin (o lo)
  close : b.close = .fin (c (lo + r - 1))
  high : ∃ y, b.high = .fin y ∧ IsMaxOn h lo hi y
  low : ∃ y, b.low = .fin y ∧ IsMinOn l lo hi y
  volume : b.volume = .fin (∑ i ∈ Finset.Ico lo (lo + r), v i)
  change : o lo ≠ 0 → b.changePercent = .fin ((c (lo + r - 1) - o lo) / o lo)
  bull : b.isBull = decide (o lo < c (lo + r - 1))
  amount : b.amount = .fin 0
  count : b.count = 0

/-- What a bucket looks like after merging `k >= 1` candles. -/
theorem bucketRun_exact (cd : Nat → Candle (XF K)) (o h l c v : Nat → K) (lo r n : Nat) (s T : Int)
    (hs : 0 < s) (hr : 2 ≤ r) (hp : ∀ i, lo + i < n → Priced (cd (lo + i)) (T + i * s) (o (lo + i)) (h (lo + i))
      (l (lo + i)) (c (lo + i)) (v (lo + i))) (hl : ∀ i, l i ≠ 0) (k : Nat) (hk : 1 ≤ k) (hkn : lo + k ≤ n) :
    let b := bucketRun s (r * s) cd lo (Candle.zero T) k
    b.timeUnix = T ∧ b.open_ = .fin (o lo) ∧ (∃ y, b.high = .fin y ∧ IsMaxOn h lo (lo + k) y) ∧
      (∃ y, b.low = .fin y ∧ IsMinOn l lo (lo + k) y) ∧
      b.volume = .fin (∑ i ∈ Finset.Ico lo (lo + min k r), v i) ∧
      (r ≤ k → b.close = .fin (c (lo + r - 1)) ∧
        b.changePercent = (.fin (c (lo + r - 1)) -. .fin (o lo)) /. .fin (o lo) ∧
        b.isBull = decide (o lo < c (lo + r - 1))) ∧
      (k < r → b.isBull = false) ∧ b.amount = .fin 0 ∧ b.count = 0 := by
  have hz : ((fl 0 : XF K)) = .fin 0 := by rw [fl_fin]; simp
  induction k, hk using Nat.le_induction with
  | base =>
    have p := hp 0 (by omega)
    simp only [Nat.add_zero, Nat.cast_zero, zero_mul, add_zero] at p
    have hrun : bucketRun s (r * s) cd lo (Candle.zero T) 1 = mergeCandle s (r * s) (cd lo) (Candle.zero T) := rfl
    have hne : s ≠ (r : Int) * s := by
      have : 2 * s ≤ (r : Int) * s := Int.mul_le_mul_of_nonneg_right (by omega) (by omega)
      omega
    have := merge_first s (r * s) (cd lo) hne (by rw [hz]; simp [eq_fin])
    rw [p.time] at this
    rw [hrun, this]
    refine ⟨rfl, p.open_, ⟨h lo, p.high, ⟨lo, by omega, by omega, rfl⟩, ?_⟩,
      ⟨l lo, p.low, ⟨lo, by omega, by omega, rfl⟩, ?_⟩, ?_, by omega, fun _ => rfl, hz, rfl⟩
    · rintro z ⟨i, i1, i2, rfl⟩
      rw [show i = lo by omega]
    · rintro z ⟨i, i1, i2, rfl⟩
      rw [show i = lo by omega]
    · simp only [hz, p.volume, add_fin]
      rw [show min 1 r = 1 by omega]
      simp
  | succ k hk ih =>
    obtain ⟨h1, h2, ⟨y, h3, h3'⟩, ⟨w, h4, h4'⟩, h5, h6, h7, h8, h9⟩ := ih (by omega)
    have p := hp k (by omega)
    have hpos : 0 < (k : Int) * s := Int.mul_pos (by omega) hs
    have hmul : ∀ {a b : Nat}, a < b ↔ (a : Int) * s < (b : Int) * s := by
      intro a b
      constructor
      · intro h; exact Int.mul_lt_mul_of_pos_right (by omega) hs
      · intro h
        have := Int.lt_of_mul_lt_mul_right h (by omega)
        omega
    rw [bucketRun, merge_later _ _ _ _ (by rw [h1, p.time]; omega)]
    set b := bucketRun s (r * s) cd lo (Candle.zero T) k with hb
    have c1 : (T + (k : Int) * s < T + (r : Int) * s) ↔ k < r := by
      rw [hmul (a := k) (b := r)]; omega
    have c2 : (T + (k : Int) * s + s = T + (r : Int) * s) ↔ k + 1 = r := by
      constructor
      · intro h
        have h' : ((k + 1 : Nat) : Int) * s = (r : Int) * s := by push_cast; rw [add_mul]; omega
        have := Int.eq_of_mul_eq_mul_right (by omega) h'
        exact_mod_cast this
      · rintro rfl
        push_cast; ring
    have hw : w ≠ 0 := by
      obtain ⟨i, _, _, rfl⟩ := h4'.1
      exact hl i
    simp only [h1, h2, h3, h4, h5, p.time, p.high, p.low, p.close, p.volume, c1, c2, hz]
    refine ⟨trivial, trivial, ⟨_, ?_, h3'.step (by omega)⟩, ⟨_, ?_, h4'.step (by omega)⟩, ?_, ?_, ?_, h8, h9⟩
    · simp only [GoFloat.gt, lt_fin, decide_eq_true_eq]
      split <;> rfl
    · simp only [lt_fin, eq_fin, decide_eq_true_eq, hw, false_or]
      split <;> rfl
    · by_cases hkr : k < r
      · rw [if_pos hkr, show min (k + 1) r = k + 1 by omega, show min k r = k by omega, add_fin,
          ← Nat.add_assoc, Finset.sum_Ico_succ_top (by omega)]
      · rw [if_neg hkr, show min (k + 1) r = min k r by omega]
    · intro hrk
      by_cases hkr : k + 1 = r
      · subst hkr
        have hbull := h7 (by omega)
        simp only [if_true, true_and, GoFloat.gt, lt_fin, decide_eq_true_eq, hbull,
          show lo + (k + 1) - 1 = lo + k by omega]
        by_cases hc : o lo < c (lo + k) <;> simp [hc]
      · obtain ⟨a1, a2, a3⟩ := h6 (by omega)
        simp only [hkr, if_false, false_and]
        exact ⟨a1, a2, a3⟩
    · intro hlt
      rw [if_neg (by omega)]
      exact h7 (by omega)

/-- **C15 (partial).** For every gap-free series of `n` candles (instants `t0, t0 + interval, ..`) with
finite prices, non-zero lows, a positive start aligned to the new interval, and every whole ratio
`r >= 2` with `r <= n`: `ConvertToNewInterval` succeeds with `n / r` candles. Candle `j` carries the
start of bucket `j`, the first open, the last close, the sum of the volumes, the relative change and
the bull flag of exactly the old candles `j*r .. j*r+r-1`, and high and low of exactly these candles —
except that high and low of the last candle also range over the trailing `n % r` candles. In
particular the result is exact when `r` divides `n`. Missing from C15: ignoring the trailing candles
in the high and low of the last candle, which is false (next theorem). -/
theorem C15_upscale_partial (now : Int) (e : Item (XF K)) (n r : Nat) (o h l c v : Nat → K)
    (hn : e.candles.length = n) (hi : 0 < e.interval) (hr : 2 ≤ r) (hrn : r ≤ n) (t0 : Int) (ht0 : 0 < t0)
    (hgap : ∀ (x : Nat) (b : Candle (XF K)), e.candles[x]? = some b →
      ofUnix b.timeUnix = ofUnix t0 + x * e.interval)
    (hprice : ∀ (x : Nat) (b : Candle (XF K)), e.candles[x]? = some b →
      Priced b b.timeUnix (o x) (h x) (l x) (c x) (v x))
    (hl : ∀ x, l x ≠ 0) (halign : r * e.interval ∣ ofUnix t0 + zeroOffset) :
    ∃ it, ConvertToNewInterval now (some e) (r * e.interval) = .ok (.ok it) ∧
      it.exchange = e.exchange ∧ it.interval = r * e.interval ∧ it.candles.length = n / r ∧
      ∀ (j : Nat) (b : Candle (XF K)), it.candles[j]? = some b →
        IsBucket o h l c v (j * r) r (if j + 1 = n / r then n else j * r + r)
          (t0 + j * unix (r * e.interval)) b := by
  obtain ⟨cd, hcd⟩ := exists_tabCandles e.candles
  rw [hn] at hcd
  have hgap' : ∀ x, x < n → ofUnix (cd x).timeUnix = ofUnix t0 + x * e.interval :=
    fun x hx => hgap x _ (by rw [hcd, tab_getElem?_lt hx])
  have hprice' : ∀ x, x < n → Priced (cd x) (cd x).timeUnix (o x) (h x) (l x) (c x) (v x) :=
    fun x hx => hprice x _ (by rw [hcd, tab_getElem?_lt hx])
  -- the interval is a whole number of seconds
  obtain ⟨s, hsv⟩ : ∃ s : Int, e.interval = s * nsec := by
    have h1 := hgap' 1 (by omega)
    refine ⟨(cd 1).timeUnix - t0, ?_⟩
    unfold ofUnix at h1
    rw [sub_mul, h1]; simp
  have hnp : (0 : Int) < nsec := by decide
  have hs : 0 < s := by
    by_contra hneg
    have := Int.mul_le_mul_of_nonneg_right (show s ≤ 0 by omega) (le_of_lt hnp)
    omega
  have htime : ∀ x, x < n → (cd x).timeUnix = t0 + x * s := by
    intro x hx
    have h1 := hgap' x hx
    unfold ofUnix at h1
    rw [hsv] at h1
    refine Int.eq_of_mul_eq_mul_right (a := nsec) (by omega) ?_
    rw [h1]; ring
  have hri : e.interval < (r : Int) * e.interval := by
    have : 2 * e.interval ≤ (r : Int) * e.interval := Int.mul_le_mul_of_nonneg_right (by omega) (by omega)
    omega
  have hst0 : (cd 0).timeUnix = t0 := by rw [htime 0 (by omega)]; simp
  have hstop : ofUnix (cd (n - 1)).timeUnix + e.interval = ofUnix t0 + n * e.interval := by
    rw [hgap' (n - 1) (by omega)]
    have : ((n - 1 : Nat) : Int) = n - 1 := by omega
    rw [this]; ring
  have hpos : 0 < ofUnix t0 := Int.mul_pos ht0 hnp
  have hnpos : 0 < (n : Int) * e.interval := Int.mul_pos (by omega) hi
  have hzt : zeroTime < 0 := by decide
  have hm1 : 1 ≤ n / r := Nat.div_pos hrn (by omega)
  -- evaluate
  rw [convert_eq now e _ n r cd hi hri rfl (by omega) hcd, hstop, hst0]
  have hw : ofUnix t0 + (n : Int) * e.interval - ofUnix t0 = n * e.interval := by ring
  rw [hw, Int.mul_tdiv_cancel _ (by omega), if_neg (by simp), if_neg (by omega)]
  have hchk : StartEndTimeCheck now (ofUnix t0) (ofUnix t0 + n * e.interval) = .ok () ∨
      StartEndTimeCheck now (ofUnix t0) (ofUnix t0 + n * e.interval) = .error .startAfterNow := by
    unfold StartEndTimeCheck
    rw [if_neg (by omega), if_neg (by omega), if_neg (by omega), if_neg (by omega)]
    split <;> simp
  obtain ⟨N, L, k, hN, hL1, hL2, hx, hk1, hcov, hk0, htight, hcalc⟩ :=
    calc_eq now _ _ (r * e.interval) 100000 hchk (by omega)
  have hflat := flat_ranges (roundT (r * e.interval) (ofUnix t0)) (r * e.interval) N L k hx
  rw [show min (k * L) N = N by have := hcov (by omega); omega] at hflat
  have hmr : ((n / r : Nat) : Int) * (r * e.interval) ≤ (n : Int) * e.interval := by
    rw [← mul_assoc]
    refine Int.mul_le_mul_of_nonneg_right ?_ (by omega)
    exact_mod_cast Nat.div_mul_le_self n r
  have hmN : n / r ≤ N := enough_intervals (by omega) (by omega) hN
  rw [hcalc, ok_bind]
  simp only
  rw [assignRanges_eq _ _ N (n / r) hflat hmN, ok_bind]
  simp only
  have hround : roundT (r * e.interval) (ofUnix t0) = ofUnix t0 := roundT_aligned (by omega) halign
  have hstamp : (tab (n / r) fun j => some (Candle.zero (F := XF K)
        (unix (ivAt (roundT (r * e.interval) (ofUnix t0)) (r * e.interval) j).start.time)))
      = tab (n / r) fun j => some (Candle.zero (t0 + (j * r : Nat) * s)) := by
    refine tab_ext fun j hj => ?_
    congr 2
    rw [hround]
    simp only [ivAt, CreateIntervalTime]
    unfold ofUnix unix
    rw [hsv, show t0 * nsec + (j : Int) * ((r : Int) * (s * nsec)) = (t0 + ((j * r : Nat) : Int) * s) * nsec by
      push_cast; ring, Int.mul_ediv_cancel _ (by omega)]
  rw [hstamp]
  have hsec1 : wholeSeconds e.interval = s := by
    rw [wholeSeconds, hsv, Int.mul_tdiv_cancel _ (by omega)]
  have hsec2 : wholeSeconds (r * e.interval) = r * s := by
    rw [wholeSeconds, hsv, ← mul_assoc, Int.mul_tdiv_cancel _ (by omega)]
  rw [hsec1, hsec2]
  obtain ⟨t, hloop⟩ := convertLoop_aligned n r (n / r) s t0 cd hs (by omega) rfl hm1 htime s (r * s)
  rw [hloop, ok_bind]
  simp only
  rw [allSlots_tab]
  refine ⟨_, rfl, rfl, rfl, by simp [newItem], ?_⟩
  intro j b hb
  simp only [newItem] at hb
  have hj : j < n / r := by
    by_contra hc
    rw [tab_getElem?, if_neg hc] at hb; cases hb
  rw [tab_getElem?_lt hj] at hb
  cases hb
  have hjr : (j + 1) * r ≤ n := le_trans (Nat.mul_le_mul_right _ hj) (Nat.div_mul_le_self n r)
  have hjr' : (j + 1) * r = j * r + r := by ring
  set cnt := if j + 1 = n / r then n - j * r else r with hcnt
  have hcr : r ≤ cnt := by rw [hcnt]; split <;> omega
  have hcn : j * r + cnt ≤ n := by rw [hcnt]; split <;> omega
  have hhi : (if j + 1 = n / r then n else j * r + r) = j * r + cnt := by rw [hcnt]; split <;> omega
  obtain ⟨b1, b2, b3, b4, b5, b6, _, b8, b9⟩ := bucketRun_exact cd o h l c v (j * r) r n s
    (t0 + (j * r : Nat) * s) hs hr (fun i hi' => by
      have p := hprice' (j * r + i) hi'
      rw [htime _ hi'] at p
      have : t0 + ((j * r + i : Nat) : Int) * s = t0 + ((j * r : Nat) : Int) * s + (i : Int) * s := by
        push_cast; ring
      rw [this] at p
      exact p) hl cnt (by omega) hcn
  obtain ⟨d1, d2, d3⟩ := b6 hcr
  rw [hhi]
  refine ⟨?_, b2, d1, b3, b4, ?_, ?_, d3, b8, b9⟩
  · rw [b1]
    unfold unix
    rw [hsv, ← mul_assoc, Int.mul_ediv_cancel _ (by omega)]
    push_cast; ring
  · rw [b5, show min cnt r = r by omega]
  · intro ho
    rw [d2, sub_fin, div_fin ho]

/-- A series meeting the hypotheses: five one-minute candles into two-minute candles. -/
def fiveMinutes : Item (XF ℚ) where
  exchange := "x"
  interval := 60 * nsec
  symbol := ""
  code := ""
  candles := [candleOf 120 2 5 1 3 1, candleOf 180 3 4 2 4 2, candleOf 240 4 6 3 5 3,
    candleOf 300 5 7 4 6 4, candleOf 360 6 9 (1 / 2) 7 5]

example : ∃ it, ConvertToNewInterval 0 (some fiveMinutes) ((2 : Nat) * (60 * nsec)) = .ok (.ok it) ∧
    it.candles.length = 2 := by
  obtain ⟨it, h1, _, _, h2, _⟩ := C15_upscale_partial 0 fiveMinutes 5 2
    (fun i => [2, 3, 4, 5, 6].getD i 0) (fun i => [5, 4, 6, 7, 9].getD i 0)
    (fun i => [1, 2, 3, 4, 1 / 2].getD i 1) (fun i => [3, 4, 5, 6, 7].getD i 0)
    (fun i => [1, 2, 3, 4, 5].getD i 0) rfl (by decide) (by decide) (by decide) 120 (by decide)
    (by
      intro x b hx
      match x, hx with
      | 0, hx | 1, hx | 2, hx | 3, hx | 4, hx => cases hx; rfl)
    (by
      intro x b hx
      match x, hx with
      | 0, hx | 1, hx | 2, hx | 3, hx | 4, hx => cases hx; exact ⟨rfl, rfl, rfl, rfl, rfl, rfl⟩)
    (by
      intro x
      match x with
      | 0 | 1 | 2 | 3 | 4 => norm_num
      | x + 5 => simp)
    (by decide)
  exact ⟨it, h1, h2⟩

/-- **C15 is false for trailing candles**: the fifth minute, which fills no bucket, changes the high
(7 becomes 9) and the low (3 becomes 1/2) of the second candle. -/
theorem C15_trailing_refuted :
    (match ConvertToNewInterval 0 (some fiveMinutes) (120 * nsec) with
      | .ok (.ok it) => it.candles.map (fun b => (b.timeUnix, [b.open_, b.high, b.low, b.close, b.volume]))
      | _ => []) =
      [(120, [.fin 2, .fin 5, .fin 1, .fin 4, .fin 3]), (240, [.fin 4, .fin 9, .fin (1 / 2), .fin 6, .fin 7])] := by
  decide +kernel

end Verif.Props
