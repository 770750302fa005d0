import Verif.Klines.Ranges
import Verif.Go.Decimal

/-!
# Date ranges with Go's durations and float64

The functions of `Verif/Klines/Ranges.lean` once more, with the saturating `Time.Sub` and with the number of requests
computed in float64.
-/

namespace Verif.Klines
open Verif GoFloat XF

/-- `stop.Sub(start)`: a `time.Duration` is an int64 of nanoseconds, and `Sub` saturates. -/
def subSat (stop start : Int) : Int := Max.max (-2 ^ 63) (Min.min (2 ^ 63 - 1) (stop - start))

/-- Models utils/klines/kline.go:269-275 `TotalCandlesPerInterval`. -/
def TotalCandles64 (start stop interval : Int) : Go Int :=
  if interval ≤ 0 then pure 0 else goDiv (subSat stop start) interval

/-- Models utils/klines/kline.go:290-301: the number of requests (a float64) and the limit used. `int64(x)` is
truncation; for NaN and infinities, which the code does not convert, it is 0 here. -/
def requests64 (count limit : Int) : B64 × Int :=
  let requests : B64 := fl count /. fl limit
  if requests <=. fl 1 then (fl 1, limit)
  else if limit = 0 then (fl 1, toUint32 count)
  else if requests -. fl (truncF requests.val) >. fl 0 then (requests +. fl 1, limit)
  else (requests, limit)

/-- Models utils/klines/kline.go:280-328 `CalculateCandleDateRanges`. `limit` is a `uint32`. -/
def CandleDateRanges64 (now start stop interval limit : Int) : Go (Except KErr IntervalRangeHolder) :=
  match StartEndTimeCheck now start stop with
  | .error .dateUnset => pure (.error .dateUnset)
  | .error .startAfterEnd => pure (.error .startAfterEnd)
  | .error .startEqualsEnd => pure (.error .startEqualsEnd)
  | _ =>
    if interval ≤ 0 then pure (.error .invalidInterval)
    else do
      let start := roundT interval start
      let stop := roundT interval stop
      let window := subSat stop start
      let count ← goDiv window interval
      let (requests, limit) := requests64 count limit
      let n := truncF requests.val
      let potential ← mk n IntervalRange.zero
      let (requestStart, _, potential) ← goFor 0 n (start, count, potential)
        fun x (requestStart, count, potential) => do
          let r ← idx potential x
          let r := { r with start := CreateIntervalTime requestStart }
          let count := count - limit
          let (requestStart, ivs) ←
            fillIntervals interval (if count < 0 then count + limit else limit) requestStart
          let r := { r with intervals := ivs }
          let r := { r with stop := CreateIntervalTime requestStart }
          let potential ← setAt potential x r
          pure (requestStart, count, potential)
      pure (.ok { start := CreateIntervalTime start, stop := CreateIntervalTime requestStart,
                  ranges := potential, limit := limit })

/-- The choice of requests in exact arithmetic. -/
def requestsX (count limit : Int) : XF ℚ × Int :=
  let requests : XF ℚ := fl count /. fl limit
  if requests <=. fl 1 then (fl 1, limit)
  else if limit = 0 then ((fl 1 : XF ℚ), toUint32 count)
  else if requests -. fl (truncF requests) >. fl 0 then (requests +. fl 1, limit)
  else (requests, limit)

theorem requests_eq {count limit : ℕ} (hc : count ≤ 2 ^ 51) (hl : limit < 2 ^ 32) :
    truncF (requests64 count limit).1.val = truncF (requestsX count limit).1 ∧
    (requests64 count limit).2 = (requestsX count limit).2 := by
  have h1 : (fl 1 : B64).val = .fin 1 := by simpa using B64.val_fl 1 (by norm_num)
  have h0 : (fl 0 : B64).val = .fin 0 := by simpa using B64.val_fl 0 (by norm_num)
  have hcv : (fl (count : Int) : B64).val = .fin count := by
    have := B64.val_fl (count : ℤ) (by rw [abs_of_nonneg (by omega)]; omega)
    simpa using this
  have hlv : (fl (limit : Int) : B64).val = .fin limit := by
    have := B64.val_fl (limit : ℤ) (by rw [abs_of_nonneg (by omega)]; omega)
    simpa using this
  rcases Nat.eq_zero_or_pos limit with rfl | hpos
  · -- no limit: one request for all
    have hv : (fl (count : Int) /. fl ((0 : ℕ) : Int) : B64).val = (fl (count : Int) /. fl ((0 : ℕ) : Int) : XF ℚ) := by
      have hx : (fl (count : Int) /. fl ((0 : ℕ) : Int) : XF ℚ) = infSign (count : ℚ) := by
        rw [fl_nat, fl_nat, Nat.cast_zero, div_fin_eq, if_pos rfl]
      rw [hx, B64.val_div_zero hcv (by simpa using hlv), infSign]
      have hs : (fl ((0 : ℕ) : Int) : B64).signbit = false := by decide +kernel
      rw [hs]
      by_cases hc0 : count = 0
      · subst hc0; simp
      · have : (0 : ℚ) < count := by exact_mod_cast Nat.pos_of_ne_zero hc0
        simp [hc0, this, not_lt.mpr this.le]
    have hcond : (fl (count : Int) /. fl ((0 : ℕ) : Int) <=. (fl 1 : B64)) =
        (fl (count : Int) /. fl ((0 : ℕ) : Int) <=. (fl 1 : XF ℚ)) := by
      rw [← hv]
      show ((_ : XF ℚ) <=. (fl 1 : B64).val) = _
      rw [h1]; rfl
    have h1' : truncF (fl 1 : B64).val = truncF (fl 1 : XF ℚ) := by rw [h1]; rfl
    simp only [requests64, requestsX, hcond]
    generalize (fl (count : Int) /. fl ((0 : ℕ) : Int) <=. (fl 1 : XF ℚ)) = b
    cases b
    · rw [if_neg Bool.false_ne_true, if_neg Bool.false_ne_true, if_pos Nat.cast_zero, if_pos Nat.cast_zero]
      exact ⟨h1', rfl⟩
    · rw [if_pos rfl, if_pos rfl]
      exact ⟨h1', rfl⟩
  · have lq : (0 : ℚ) < limit := by exact_mod_cast hpos
    have hdX : (fl (count : Int) /. fl (limit : Int) : XF ℚ) = .fin ((count : ℚ) / limit) := by
      rw [fl_nat, fl_nat, div_fin lq.ne']
    have hd : (fl (count : Int) /. fl (limit : Int) : B64).val = round64 ((count : ℚ) / limit) := B64.val_div hcv hlv lq.ne'
    set q : ℚ := (count : ℚ) / limit with hq
    have q0 : 0 ≤ q := div_nonneg (Nat.cast_nonneg _) lq.le
    have hql : q * limit = count := div_mul_cancel₀ _ lq.ne'
    have hqm : q ≤ 2 ^ 51 := by
      have : (count : ℚ) ≤ 2 ^ 51 := by exact_mod_cast hc
      have h1l : (1 : ℚ) ≤ limit := by exact_mod_cast hpos
      nlinarith
    obtain ⟨r, hr, -⟩ := round64_error (k := 51) (by norm_num) (by norm_num)
      (show |q| ≤ (2 : ℚ) ^ (51 : ℤ) by rw [abs_of_nonneg q0]; exact_mod_cast hqm)
    have er := (round64_value hr).1
    rw [hr] at hd
    rcases le_or_gt q 1 with hq1 | hq1
    · -- one request is enough
      have hr1 : r ≤ 1 := by
        have s1 : SRep 1 := by simpa using srep_int (n := 1) (by norm_num)
        have := roundS_mono hq1
        rwa [er, roundS_rep s1] at this
      have c1 : (fl (count : Int) /. fl (limit : Int) <=. (fl 1 : B64)) = true := by
        rw [B64.le_val hd h1, decide_eq_true_iff]; exact hr1
      have c2 : (fl (count : Int) /. fl (limit : Int) <=. (fl 1 : XF ℚ)) = true := by
        rw [hdX, show (fl 1 : XF ℚ) = .fin 1 by simp, le_fin, decide_eq_true_iff]; exact hq1
      simp only [requests64, requestsX]
      rw [if_pos c1, if_pos c2]
      refine ⟨?_, rfl⟩
      rw [h1, show (fl 1 : XF ℚ) = .fin 1 by simp]
    · have f1 : (fl 1 : XF ℚ) = .fin 1 := by simp
      have f0 : (fl 0 : XF ℚ) = .fin 0 := by simp
      have c2 : (fl (count : Int) /. fl (limit : Int) <=. (fl 1 : XF ℚ)) = false := by
        rw [hdX, f1, le_fin, decide_eq_false_iff_not]; exact not_le.mpr hq1
      have hl0 : ¬((limit : Int) = 0) := by omega
      have tX : truncF (fl (count : Int) /. fl (limit : Int) : XF ℚ) = ⌊q⌋ := by rw [hdX, truncF_nonneg q0]
      have hfl : ∀ n : ℤ, (fl n : XF ℚ) = .fin n := fun n => rfl
      rcases (Int.floor_le q).eq_or_lt with hint | hfrac
      · -- a whole number of requests
        have hrq : r = q := by
          rw [← er, ← hint]
          refine roundS_rep (srep_int ?_)
          rw [abs_of_nonneg (Int.floor_nonneg.mpr q0)]
          have : (⌊q⌋ : ℚ) ≤ 2 ^ 51 := by rw [hint]; exact hqm
          have : ⌊q⌋ ≤ 2 ^ 51 := by exact_mod_cast this
          omega
        rw [hrq] at hd
        have c1 : (fl (count : Int) /. fl (limit : Int) <=. (fl 1 : B64)) = false := by
          rw [B64.le_val hd h1, decide_eq_false_iff_not]; exact not_le.mpr hq1
        have tB : truncF (fl (count : Int) /. fl (limit : Int) : B64).val = ⌊q⌋ := by rw [hd, truncF_nonneg q0]
        have hfv : (fl ⌊q⌋ : B64).val = .fin q := by
          have := B64.val_fl ⌊q⌋ (by
            rw [abs_of_nonneg (Int.floor_nonneg.mpr q0)]
            have : (⌊q⌋ : ℚ) ≤ 2 ^ 51 := by rw [hint]; exact hqm
            have : ⌊q⌋ ≤ 2 ^ 51 := by exact_mod_cast this
            omega)
          rw [this, hint]
        have d1 : (fl (count : Int) /. fl (limit : Int) -. fl ⌊q⌋ >. (fl 0 : B64)) = false := by
          have : (fl (count : Int) /. fl (limit : Int) -. fl ⌊q⌋ : B64).val = .fin 0 := by
            rw [B64.val_sub hd hfv, sub_self, round64_rep srep_zero]
          show (fl 0 <. _) = false
          rw [B64.lt_val h0 this]; simp
        have d2 : (fl (count : Int) /. fl (limit : Int) -. fl ⌊q⌋ >. (fl 0 : XF ℚ)) = false := by
          show (fl 0 <. _) = false
          rw [hdX, hfl ⌊q⌋, sub_fin, f0, lt_fin, hint, sub_self]; simp
        simp only [requests64, requestsX, tB, tX, c1, c2, d1, d2, if_neg hl0, Bool.false_eq_true, if_false, and_self]
      · -- a part of a request left over
        obtain ⟨m, hm⟩ : ∃ m : ℕ, ⌊q⌋ = m := Int.eq_ofNat_of_zero_le (Int.floor_nonneg.mpr q0)
        have hlt := Int.lt_floor_add_one q
        rw [hm, Int.cast_natCast] at hfrac hlt
        have hcm : m * limit + 1 ≤ count ∧ count + 1 ≤ (m + 1) * limit := by
          have h2 : ((m * limit : ℕ) : ℚ) < (count : ℕ) := by push_cast; rw [← hql]; exact mul_lt_mul_of_pos_right hfrac lq
          have h3 : ((count : ℕ) : ℚ) < ((m + 1) * limit : ℕ) := by push_cast; rw [← hql]; exact mul_lt_mul_of_pos_right hlt lq
          exact ⟨Nat.cast_lt.mp h2, Nat.cast_lt.mp h3⟩
        set u : ℚ := 1 / limit with hu
        have hul : u * limit = 1 := by rw [hu]; field_simp
        have u0 : 0 < u := by rw [hu]; positivity
        have hqlo : (m : ℚ) + u ≤ q := by
          have : ((m * limit + 1 : ℕ) : ℚ) ≤ (count : ℕ) := Nat.cast_le.mpr hcm.1
          push_cast at this
          nlinarith
        have hqhi : q + u ≤ m + 1 := by
          have : ((count + 1 : ℕ) : ℚ) ≤ ((m + 1) * limit : ℕ) := Nat.cast_le.mpr hcm.2
          push_cast at this
          nlinarith
        have hu32 : (1 : ℚ) / 2 ^ 32 ≤ u := by
          rw [hu]
          have : (limit : ℚ) ≤ 2 ^ 32 := by exact_mod_cast hl.le
          exact one_div_le_one_div_of_le lq this
        have hqu : q / 2 ^ 53 ≤ u / 4 := by
          have : (count : ℚ) ≤ 2 ^ 51 := by exact_mod_cast hc
          rw [hq, hu, div_div, div_div, div_le_div_iff₀ (by positivity) (by positivity)]
          nlinarith
        have tiny : (2 : ℚ) ^ (-1021 : ℤ) ≤ 1 := by simpa using zpow_le_zpow_right₀ (by norm_num : (1 : ℚ) ≤ 2) (by norm_num : (-1021 : ℤ) ≤ 0)
        have herr := roundS_relative (q := q) (by rw [abs_of_nonneg q0]; linarith)
        rw [er, abs_of_nonneg q0] at herr
        obtain ⟨e1, e2⟩ := abs_le.mp herr
        have hr1 : 1 < r := by
          have : (1 : ℚ) ≤ m := by
            have : (1 : ℚ) < m + 1 := by linarith
            have : 1 < m + 1 := by exact_mod_cast this
            exact_mod_cast (by omega : 1 ≤ m)
          linarith
        have fr : ⌊r⌋ = m := by
          rw [Int.floor_eq_iff]
          push_cast
          exact ⟨by linarith, by linarith⟩
        have tB : truncF (fl (count : Int) /. fl (limit : Int) : B64).val = m := by rw [hd, truncF_nonneg (by linarith), fr]
        have m51 : m ≤ 2 ^ 51 := by
          have : (m : ℚ) ≤ 2 ^ 51 := by linarith
          exact_mod_cast this
        have hfv : (fl (m : ℤ) : B64).val = .fin m := by
          have := B64.val_fl (m : ℤ) (by rw [abs_of_nonneg (by omega)]; omega)
          rwa [Int.cast_natCast] at this
        have c1 : (fl (count : Int) /. fl (limit : Int) <=. (fl 1 : B64)) = false := by
          rw [B64.le_val hd h1, decide_eq_false_iff_not]; exact not_le.mpr hr1
        have d2 : (fl (count : Int) /. fl (limit : Int) -. fl (m : ℤ) >. (fl 0 : XF ℚ)) = true := by
          show (fl 0 <. _) = true
          rw [hdX, hfl (m : ℤ), sub_fin, f0, lt_fin, decide_eq_true_iff, Int.cast_natCast]
          linarith
        obtain ⟨w, hw, hw1, -⟩ := round64_between (q := r - m) (lo := 1 / 2 ^ 34) (hi := 1)
          (by simpa using srep_scaled (n := 1) (e := -34) (by norm_num) (by norm_num) (by norm_num))
          (by simpa using srep_int (n := 1) (by norm_num)) (by linarith) (by linarith)
        have d1 : (fl (count : Int) /. fl (limit : Int) -. fl (m : ℤ) >. (fl 0 : B64)) = true := by
          show (fl 0 <. _) = true
          rw [B64.lt_val h0 ((B64.val_sub hd hfv).trans hw), decide_eq_true_iff]
          have : (0 : ℚ) < 1 / 2 ^ 34 := by norm_num
          linarith
        obtain ⟨s, hs, -⟩ := round64_error (q := r + 1) (k := 52) (by norm_num) (by norm_num)
          (show |r + 1| ≤ (2 : ℚ) ^ (52 : ℤ) by
            rw [abs_of_pos (by linarith), show (2 : ℚ) ^ (52 : ℤ) = 2 ^ 51 + 2 ^ 51 by norm_num]
            have : (2 : ℚ) ≤ 2 ^ 51 := by norm_num
            linarith)
        have hserr := roundS_relative (q := r + 1) (by rw [abs_of_pos (by linarith)]; linarith)
        rw [(round64_value hs).1, abs_of_pos (by linarith : 0 < r + 1), add_div] at hserr
        have hr53 : r / 2 ^ 53 ≤ q / 2 ^ 53 + u / 16 := by
          have : r / 2 ^ 53 ≤ (q + u / 4) / 2 ^ 53 := div_le_div_of_nonneg_right (by linarith) (by norm_num)
          rw [add_div] at this
          have h3 : u / 4 / 2 ^ 53 ≤ u / 16 := by rw [div_div]; exact div_le_div_of_nonneg_left u0.le (by norm_num) (by norm_num)
          linarith
        have h53 : (1 : ℚ) / 2 ^ 53 ≤ u / 16 := by
          have : (1 : ℚ) / 2 ^ 53 ≤ 1 / 2 ^ 32 / 16 := by norm_num
          linarith
        obtain ⟨g1, g2⟩ := abs_le.mp hserr
        have fs : ⌊s⌋ = m + 1 := by
          rw [Int.floor_eq_iff]
          push_cast
          exact ⟨by linarith, by linarith⟩
        have hadd : (fl (count : Int) /. fl (limit : Int) +. fl 1 : B64).val = .fin s := (B64.val_add hd h1).trans hs
        have tX' : truncF (fl (count : Int) /. fl (limit : Int) : XF ℚ) = m := by rw [tX, hm]
        simp only [requests64, requestsX, tB, tX', c1, c2, d1, d2, if_neg hl0, Bool.false_eq_true, if_false, if_true, and_true]
        rw [hadd, hdX, f1, add_fin, truncF_nonneg (by linarith), truncF_nonneg (by linarith), fs, Int.floor_add_one, hm]

/-- What both models do once the number of requests and the limit are known. -/
def rangesTail (interval start count n limit : Int) : Go (Except KErr IntervalRangeHolder) := do
  let potential ← mk n IntervalRange.zero
  let (requestStart, _, potential) ← goFor 0 n (start, count, potential)
    fun x (requestStart, count, potential) => do
      let r ← idx potential x
      let r := { r with start := CreateIntervalTime requestStart }
      let count := count - limit
      let (requestStart, ivs) ←
        fillIntervals interval (if count < 0 then count + limit else limit) requestStart
      let r := { r with intervals := ivs }
      let r := { r with stop := CreateIntervalTime requestStart }
      let potential ← setAt potential x r
      pure (requestStart, count, potential)
  pure (.ok { start := CreateIntervalTime start, stop := CreateIntervalTime requestStart,
              ranges := potential, limit := limit })

/-- With windows below 292 years and at most `2^51` intervals the two models agree. -/
theorem ranges64_eq (now start stop interval : Int) (limit : Nat) (hl : limit < 2 ^ 32)
    (hw : roundT interval stop - roundT interval start < 2 ^ 63)
    (hc : roundT interval stop - roundT interval start ≤ 2 ^ 51 * interval) :
    CandleDateRanges64 now start stop interval limit = CalculateCandleDateRanges now start stop interval limit := by
  by_cases hs : StartEndTimeCheck now start stop = .ok () ∨ StartEndTimeCheck now start stop = .error .startAfterNow
  · by_cases hi : interval ≤ 0
    · unfold CandleDateRanges64 CalculateCandleDateRanges
      rcases hs with hs | hs <;> simp only [hs, if_pos hi]
    · have hi' : 0 < interval := by omega
      obtain ⟨N, L, n, hN, -⟩ := calc_eq now start stop interval limit hs hi'
      have hwin : roundT interval stop - roundT interval start = N * interval := by rw [hN]; ring
      have hsub : subSat (roundT interval stop) (roundT interval start) = roundT interval stop - roundT interval start := by
        have : 0 ≤ (N : Int) * interval := by positivity
        unfold subSat
        omega
      have hcount : goDiv (roundT interval stop - roundT interval start) interval = .ok (N : Int) := by
        rw [hwin, goDiv, if_neg (by omega), Int.mul_tdiv_cancel _ (by omega)]
      have hN51 : N ≤ 2 ^ 51 := by
        rw [hwin] at hc
        exact_mod_cast le_of_mul_le_mul_right hc hi'
      obtain ⟨t1, t2⟩ := requests_eq hN51 hl
      unfold CandleDateRanges64 CalculateCandleDateRanges
      rcases hs with hs | hs
      all_goals
        rw [hs]
        dsimp only
        rw [if_neg hi, if_neg hi, hsub, hcount]
        show rangesTail interval (roundT interval start) N (truncF (requests64 N limit).1.val) (requests64 N limit).2 =
          rangesTail interval (roundT interval start) N (truncF (requestsX N limit).1) (requestsX N limit).2
        rw [t1, t2]
  · have hc : StartEndTimeCheck now start stop = .error .dateUnset ∨ StartEndTimeCheck now start stop = .error .startAfterEnd ∨
        StartEndTimeCheck now start stop = .error .startEqualsEnd := by
      unfold StartEndTimeCheck at hs ⊢
      split_ifs at hs ⊢ <;> simp at hs ⊢
    unfold CandleDateRanges64 CalculateCandleDateRanges
    rcases hc with hc | hc | hc <;> rw [hc]

end Verif.Klines
