import Verif.Klines.Types
import Mathlib.Data.Rat.Floor
import Mathlib.Tactic.Ring
import Mathlib.Tactic.Linarith

/-!
# Date ranges (`utils/klines/kline.go:268-360`)
-/

namespace Verif.Klines
open Verif GoFloat XF

/-- Models utils/klines/kline_type.go:120-123 `IntervalTime`. -/
structure IntervalTime where
  time : Int
  ticks : Int
  deriving DecidableEq, Repr

/-- Models utils/klines/kline_type.go:111-115 `IntervalData`. -/
structure IntervalData where
  start : IntervalTime
  stop : IntervalTime
  hasData : Bool
  deriving DecidableEq, Repr

/-- Models utils/klines/kline_type.go:103-107 `IntervalRange`. -/
structure IntervalRange where
  start : IntervalTime
  stop : IntervalTime
  intervals : List IntervalData
  deriving DecidableEq, Repr

/-- Models utils/klines/kline_type.go:95-100 `IntervalRangeHolder`. -/
structure IntervalRangeHolder where
  start : IntervalTime
  stop : IntervalTime
  ranges : List IntervalRange
  limit : Int
  deriving DecidableEq, Repr

/-- Models utils/klines/kline.go:353-355 `CreateIntervalTime`. -/
def CreateIntervalTime (t : Int) : IntervalTime := { time := t, ticks := unix t }

/-- The zero value of `IntervalTime` (zero time, zero ticks). -/
def IntervalTime.zero : IntervalTime := { time := zeroTime, ticks := 0 }

/-- The zero value of `IntervalData`. -/
def IntervalData.zero : IntervalData := { start := .zero, stop := .zero, hasData := false }

/-- The zero value of `IntervalRange`. -/
def IntervalRange.zero : IntervalRange := { start := .zero, stop := .zero, intervals := [] }

/-- Models utils/commonutils/common.go:86-104 `StartEndTimeCheck`; `now` is `time.Now()`. -/
def StartEndTimeCheck (now start stop : Int) : Except KErr Unit :=
  if start = zeroTime ∨ start = 0 then .error .dateUnset
  else if stop = zeroTime ∨ stop = 0 then .error .dateUnset
  else if start > stop then .error .startAfterEnd
  else if start = stop then .error .startEqualsEnd
  else if start > now then .error .startAfterNow
  else .ok ()

/-- Models utils/klines/kline.go:269-275 `TotalCandlesPerInterval`. Simplification: `end.Sub(start)` saturates at about
292 years in Go; here it does not. -/
def TotalCandlesPerInterval (start stop interval : Int) : Go Int :=
  if interval ≤ 0 then pure 0 else goDiv (stop - start) interval

/-- `uint32(n)` for an `int64`. -/
def toUint32 (n : Int) : Int := n % 4294967296

/-- `int64(x)` for a float64: truncation towards zero. Simplification: 0 for NaN and infinities, where
Go leaves the value open (the code below only converts finite values). -/
def truncF : XF ℚ → Int
  | .fin q => if 0 ≤ q then ⌊q⌋ else -⌊-q⌋
  | _ => 0

/-- The inner loop of `CalculateCandleDateRanges` (kline.go:315-319): fills the intervals of one
request, moving `requestStart`. -/
def fillIntervals (interval : Int) (n : Int) (requestStart : Int) : Go (Int × List IntervalData) := do
  let ivs ← mk n IntervalData.zero
  goFor 0 n (requestStart, ivs) fun y (rs, ivs) => do
    let iv ← idx ivs y
    let iv := { iv with start := CreateIntervalTime rs }
    let rs := rs + interval
    let iv := { iv with stop := CreateIntervalTime rs }
    let ivs ← setAt ivs y iv
    pure (rs, ivs)

/-- Models utils/klines/kline.go:280-328 `CalculateCandleDateRanges`. `limit` is a `uint32`. The float64
division `count / limit` is exact arithmetic with the IEEE rules for division by zero
(simplification: for counts above 2^52 Go would round it). -/
def CalculateCandleDateRanges (now start stop interval limit : Int) :
    Go (Except KErr IntervalRangeHolder) :=
  match StartEndTimeCheck now start stop with
  | .error .dateUnset => pure (.error .dateUnset)
  | .error .startAfterEnd => pure (.error .startAfterEnd)
  | .error .startEqualsEnd => pure (.error .startEqualsEnd)
  | _ =>
    if interval ≤ 0 then pure (.error .invalidInterval)
    else do
      let start := roundT interval start
      let stop := roundT interval stop
      let window := stop - start
      let count ← goDiv window interval
      let requests : XF ℚ := fl count /. fl limit
      let (requests, limit) :=
        if requests <=. fl 1 then (fl 1, limit)
        else if limit = 0 then ((fl 1 : XF ℚ), toUint32 count)
        else if requests -. fl (truncF requests) >. fl 0 then (requests +. fl 1, limit)
        else (requests, limit)
      let n := truncF requests
      let potential ← mk n IntervalRange.zero
      let (requestStart, _, potential) ← goFor 0 n (start, count, potential)
        fun x (requestStart, count, potential) => do
          let r ← idx potential x
          let r := { r with start := CreateIntervalTime requestStart }
          let count := count - limit
          let (requestStart, ivs) ←
            fillIntervals interval (if count < 0 then count + limit else limit) requestStart
          let r := { r with intervals := ivs }
          let r := { r with stop := CreateIntervalTime requestStart }
          let potential ← setAt potential x r
          pure (requestStart, count, potential)
      pure (.ok { start := CreateIntervalTime start, stop := CreateIntervalTime requestStart,
                  ranges := potential, limit := limit })

/-- The scan of the intervals of one range (kline.go:342-347): `some b` for `return b`. -/
def scanIntervals (tu : Int) : List IntervalData → Option Bool
  | [] => none
  | iv :: rest =>
    if tu ≥ iv.start.ticks ∧ tu < iv.stop.ticks then some iv.hasData else scanIntervals tu rest

/-- The scan of the ranges (kline.go:337-349). -/
def scanRanges (tu : Int) : List IntervalRange → Bool
  | [] => false
  | r :: rest =>
    if tu < r.start.ticks ∨ tu ≥ r.stop.ticks then scanRanges tu rest
    else
      match scanIntervals tu r.intervals with
      | some b => b
      | none => scanRanges tu rest

/-- Models utils/klines/kline.go:332-350 `HasDataAtDate`. -/
def HasDataAtDate (h : IntervalRangeHolder) (t : Int) : Bool :=
  let tu := unix t
  if tu < h.start.ticks ∨ tu > h.stop.ticks then false else scanRanges tu h.ranges

/-! ## Closed forms -/

/-- The `y`-th interval of length `interval` from `rs`, not marked. -/
def ivAt (rs interval : Int) (y : Nat) : IntervalData :=
  { start := CreateIntervalTime (rs + y * interval)
    stop := CreateIntervalTime (rs + (y + 1 : Nat) * interval)
    hasData := false }

theorem fillIntervals_eq (interval : Int) (n : Nat) (rs : Int) :
    fillIntervals interval n rs = .ok (rs + n * interval, tab n (ivAt rs interval)) := by
  unfold fillIntervals
  rw [mk_nat, ok_bind]
  rw [goFor_fill (s := rs) (ivAt rs interval) (fun y : Nat => rs + y * interval) (by simp)]
  intro k hk
  have : idx (filled n k (ivAt rs interval) IntervalData.zero) (k : Int) = .ok IntervalData.zero := by
    unfold filled; rw [idx_tab hk]; simp
  simp only [this, ok_bind]
  have e : rs + (k : Int) * interval + interval = rs + ((k + 1 : Nat) : Int) * interval := by
    push_cast; ring
  rw [setAt_filled (f := ivAt rs interval) hk (by simp [IntervalData.zero, ivAt, e])]
  simp [e]

/-- The `x`-th range when `N` intervals are split into requests of `L`. -/
def rangeAt (S interval : Int) (N L x : Nat) : IntervalRange :=
  { start := CreateIntervalTime (S + (x * L : Nat) * interval)
    stop := CreateIntervalTime (S + (min ((x + 1) * L) N : Nat) * interval)
    intervals := tab (min L (N - x * L)) (ivAt (S + (x * L : Nat) * interval) interval) }

theorem rangeLoop_eq (S interval : Int) (N L n : Nat) (h : ∀ x < n, x * L ≤ N) :
    goFor 0 n (S, (N : Int), List.replicate n IntervalRange.zero)
        (fun x (requestStart, count, potential) => do
          let r ← idx potential x
          let r := { r with start := CreateIntervalTime requestStart }
          let count := count - (L : Int)
          let (requestStart, ivs) ←
            fillIntervals interval (if count < 0 then count + (L : Int) else (L : Int)) requestStart
          let r := { r with intervals := ivs }
          let r := { r with stop := CreateIntervalTime requestStart }
          let potential ← setAt potential x r
          pure (requestStart, count, potential))
      = .ok (S + (min (n * L) N : Nat) * interval, (N : Int) - (n * L : Nat),
          tab n (rangeAt S interval N L)) := by
  rw [goFor_acc₀ (S := fun k => (S + (min (k * L) N : Nat) * interval, (N : Int) - (k * L : Nat),
      filled n k (rangeAt S interval N L) IntervalRange.zero))]
  · rw [filled_full]
  · simp [← filled_zero]
  · intro k hk
    have hkL := h k hk
    have hi : idx (filled n k (rangeAt S interval N L) IntervalRange.zero) (k : Int)
        = .ok IntervalRange.zero := by
      unfold filled; rw [idx_tab hk]; simp
    have hs : (k + 1) * L = k * L + L := by ring
    have hc : (if (N : Int) - (k * L : Nat) - (L : Int) < 0 then (N : Int) - (k * L : Nat) - (L : Int) + (L : Int)
        else (L : Int)) = ((min L (N - k * L) : Nat) : Int) := by
      split <;> omega
    simp only [hi, ok_bind, hc, fillIntervals_eq]
    have hmin : min (k * L) N = k * L := by omega
    have hmin' : ((min ((k + 1) * L) N : Nat) : Int) = (k * L : Nat) + (min L (N - k * L) : Nat) := by
      rw [hs]; omega
    have e : S + ((k * L : Nat) : Int) * interval + ((min L (N - k * L) : Nat) : Int) * interval
        = S + ((min ((k + 1) * L) N : Nat) : Int) * interval := by
      rw [hmin']; ring
    rw [hmin, e]
    rw [setAt_filled (f := rangeAt S interval N L) hk (by simp [rangeAt])]
    simp only [ok_bind, pure_eq_ok]
    congr 3
    rw [hs]; push_cast; ring

/-! ### Rounding -/

/-- A rounded instant is a whole number of intervals from the zero time. -/
theorem roundT_dvd {d : Int} (hd : 0 < d) (t : Int) : d ∣ roundT d t + zeroOffset := by
  unfold roundT
  rw [if_neg (by omega)]
  simp only
  have h := Int.emod_add_mul_ediv (t + zeroOffset) d
  split
  · exact ⟨(t + zeroOffset) / d, by linarith⟩
  · refine ⟨(t + zeroOffset) / d + 1, ?_⟩
    rw [mul_add]; linarith

/-- Rounding moves an instant by at most half an interval. -/
theorem roundT_near {d : Int} (hd : 0 < d) (t : Int) :
    2 * (roundT d t - t) ≤ d ∧ 2 * (t - roundT d t) < d := by
  unfold roundT
  rw [if_neg (by omega)]
  simp only
  have h1 := Int.emod_nonneg (t + zeroOffset) (show d ≠ 0 by omega)
  have h2 := Int.emod_lt_of_pos (t + zeroOffset) hd
  split <;> omega

/-- Rounding is monotone. -/
theorem roundT_mono {d : Int} (hd : 0 < d) {s t : Int} (h : s ≤ t) : roundT d s ≤ roundT d t := by
  obtain ⟨a, ha⟩ := roundT_dvd hd s
  obtain ⟨b, hb⟩ := roundT_dvd hd t
  have h1 := roundT_near hd s
  have h2 := roundT_near hd t
  by_contra hc
  have hab : b < a := by
    by_contra hba
    have : d * a ≤ d * b := Int.mul_le_mul_of_nonneg_left (by omega) (by omega)
    omega
  have : d * (b + 1) ≤ d * a := Int.mul_le_mul_of_nonneg_left (by omega) (by omega)
  rw [mul_add] at this
  omega

/-- An instant that is a whole number of intervals from the zero time is its own rounding. -/
theorem roundT_aligned {d : Int} (hd : 0 < d) {t : Int} (h : d ∣ t + zeroOffset) : roundT d t = t := by
  unfold roundT
  rw [if_neg (by omega)]
  have : (t + zeroOffset) % d = 0 := Int.emod_eq_zero_of_dvd h
  simp only [this]
  rw [if_pos (by omega)]; omega

theorem truncF_nonneg {q : ℚ} (h : 0 ≤ q) : truncF (.fin q) = ⌊q⌋ := by
  show (if 0 ≤ q then ⌊q⌋ else -⌊-q⌋) = _
  rw [if_pos h]

/-- `CalculateCandleDateRanges` for a request that passes the checks. `N` is the number of whole
intervals between the rounded ends, `L` the limit actually used, `n` the number of requests. -/
theorem calc_eq (now start stop interval : Int) (limit : Nat) (hs : StartEndTimeCheck now start stop = .ok () ∨
      StartEndTimeCheck now start stop = .error .startAfterNow) (hi : 0 < interval) :
    ∃ N L n : Nat, roundT interval stop = roundT interval start + N * interval ∧
      (limit ≠ 0 → L = limit) ∧ (limit = 0 → (L : Int) = toUint32 N) ∧
      (∀ x < n, x * L ≤ N) ∧ 1 ≤ n ∧ (limit ≠ 0 → N ≤ n * L) ∧ (limit = 0 → n = 1) ∧
      (limit ≠ 0 → (n - 1) * L < N ∨ n = 1) ∧
      CalculateCandleDateRanges now start stop interval limit
        = .ok (.ok { start := CreateIntervalTime (roundT interval start),
                     stop := CreateIntervalTime (roundT interval start + (min (n * L) N : Nat) * interval),
                     ranges := tab n (rangeAt (roundT interval start) interval N L),
                     limit := L }) := by
  have hle : start ≤ stop := by
    unfold StartEndTimeCheck at hs
    by_contra h
    split_ifs at hs <;> simp_all
  obtain ⟨a, ha⟩ := roundT_dvd hi start
  obtain ⟨b, hb⟩ := roundT_dvd hi stop
  have hmono := roundT_mono hi hle
  have hab : a ≤ b := by
    by_contra h
    have : interval * (b + 1) ≤ interval * a := Int.mul_le_mul_of_nonneg_left (by omega) (by omega)
    rw [mul_add] at this
    omega
  obtain ⟨N, hN⟩ : ∃ N : Nat, b = a + N := ⟨(b - a).toNat, by omega⟩
  have hwin : roundT interval stop - roundT interval start = interval * N := by
    have : interval * b = interval * a + interval * N := by rw [hN]; ring
    omega
  have hcount : goDiv (roundT interval stop - roundT interval start) interval = .ok (N : Int) := by
    rw [hwin, goDiv, if_neg (by omega), Int.mul_tdiv_cancel_left _ (by omega)]
  -- number of requests and limit used
  obtain ⟨L, n, rq, hrq, hn, hL1, hL2, hx, hn1, hcov, hn0, htight⟩ : ∃ (L n : Nat) (rq : XF ℚ),
      (let requests : XF ℚ := fl (N : Int) /. fl (limit : Int)
        if requests <=. fl 1 then (fl 1, (limit : Int))
        else if (limit : Int) = 0 then ((fl 1 : XF ℚ), toUint32 N)
        else if requests -. fl (truncF requests) >. fl 0 then (requests +. fl 1, (limit : Int))
        else (requests, (limit : Int))) = (rq, (L : Int)) ∧ truncF rq = (n : Int) ∧
      (limit ≠ 0 → L = limit) ∧ (limit = 0 → (L : Int) = toUint32 N) ∧
      (∀ x < n, x * L ≤ N) ∧ 1 ≤ n ∧ (limit ≠ 0 → N ≤ n * L) ∧ (limit = 0 → n = 1) ∧
      (limit ≠ 0 → (n - 1) * L < N ∨ n = 1) := by
    have h1 : truncF (fl 1 : XF ℚ) = ((1 : Nat) : Int) := by decide +kernel
    by_cases hl : limit = 0
    · subst hl
      have hnot : ((fl (N : Int) /. fl ((0 : Nat) : Int) : XF ℚ) <=. fl 1) = false := by
        rw [fl_nat, fl_nat, Nat.cast_zero, div_fin_eq, if_pos rfl, infSign]
        split
        · rfl
        · next h => rw [if_neg (by have : (0 : ℚ) ≤ N := Nat.cast_nonneg N
                                   exact not_lt.mpr this)]; rfl
      refine ⟨(toUint32 N).toNat, 1, fl 1, ?_, h1, by simp, ?_, ?_, le_refl _, by simp, by simp, by simp⟩
      · simp only [hnot, Bool.false_eq_true, if_false]
        rw [if_pos (by simp)]
        have : 0 ≤ toUint32 N := Int.emod_nonneg _ (by norm_num)
        rw [Int.toNat_of_nonneg this]
      · intro _
        have : 0 ≤ toUint32 N := Int.emod_nonneg _ (by norm_num)
        rw [Int.toNat_of_nonneg this]
      · intro x hx
        have : x = 0 := by omega
        subst this; simp
    · have hl' : ((limit : Nat) : ℚ) ≠ 0 := by exact_mod_cast hl
      have hlpos : (0 : ℚ) < limit := by exact_mod_cast Nat.pos_of_ne_zero hl
      have hdiv : (fl (N : Int) /. fl (limit : Int) : XF ℚ) = .fin ((N : ℚ) / limit) := by
        rw [fl_nat, fl_nat, div_fin hl']
      simp only [hdiv]
      by_cases h2 : N ≤ limit
      · refine ⟨limit, 1, fl 1, ?_, h1, by simp, fun h => absurd h hl, ?_, le_refl _, ?_, by simp, by simp⟩
        · rw [fl_fin, le_fin, if_pos]
          simp only [Int.cast_one, decide_eq_true_eq]
          rw [div_le_one hlpos]; exact_mod_cast h2
        · intro x hx
          have : x = 0 := by omega
          subst this; simp
        · intro _; omega
      · have hnle : ((.fin ((N : ℚ) / limit) : XF ℚ) <=. fl 1) = false := by
          rw [fl_fin, le_fin]
          simp only [Int.cast_one, decide_eq_false_iff_not, not_le]
          rw [one_lt_div hlpos]; exact_mod_cast Nat.lt_of_not_le h2
        have htr : truncF (.fin ((N : ℚ) / limit)) = ((N / limit : Nat) : Int) := by
          rw [truncF_nonneg (by positivity)]
          exact_mod_cast Rat.floor_natCast_div_natCast N limit
        have hfl : (fl (truncF (.fin ((N : ℚ) / limit))) : XF ℚ) = .fin ((N / limit : Nat) : ℚ) := by
          rw [htr, fl_nat]
        simp only [hnle, Bool.false_eq_true, if_false, hfl]
        rw [if_neg (by exact_mod_cast hl)]
        have hdm := Nat.div_add_mod N limit
        have hpos : 1 ≤ N / limit := (Nat.one_le_div_iff (Nat.pos_of_ne_zero hl)).mpr (by omega)
        by_cases hmod : N % limit = 0
        · have hexact : ((N : ℚ) / limit) = ((N / limit : Nat) : ℚ) := by
            rw [div_eq_iff hl']
            have : N = N / limit * limit := by rw [Nat.mul_comm]; omega
            exact_mod_cast this
          refine ⟨limit, N / limit, .fin ((N : ℚ) / limit), ?_, htr, by simp, fun h => absurd h hl, ?_,
            hpos, ?_, fun h => absurd h hl, ?_⟩
          · rw [if_neg]
            rw [sub_fin, GoFloat.gt, fl_fin, lt_fin, hexact]
            simp
          · intro x hx
            have : x * limit ≤ (N / limit) * limit := Nat.mul_le_mul_right _ (by omega)
            have := Nat.div_mul_le_self N limit
            omega
          · intro _
            rw [Nat.mul_comm]; omega
          · intro _
            left
            have : (N / limit - 1) * limit < (N / limit) * limit :=
              Nat.mul_lt_mul_of_pos_right (by omega) (Nat.pos_of_ne_zero hl)
            have := Nat.div_mul_le_self N limit
            omega
        · have hlt : ((N / limit : Nat) : ℚ) < (N : ℚ) / limit := by
            rw [lt_div_iff₀ hlpos]
            have : N / limit * limit < N := by rw [Nat.mul_comm]; omega
            exact_mod_cast this
          have htr' : truncF (.fin ((N : ℚ) / limit + 1)) = ((N / limit + 1 : Nat) : Int) := by
            rw [truncF_nonneg (by positivity), Int.floor_add_one]
            have : ⌊(N : ℚ) / limit⌋ = ((N / limit : Nat) : Int) := by
              exact_mod_cast Rat.floor_natCast_div_natCast N limit
            rw [this]; push_cast; ring
          refine ⟨limit, N / limit + 1, .fin ((N : ℚ) / limit + 1), ?_, htr', by simp,
            fun h => absurd h hl, ?_, by omega, ?_, fun h => absurd h hl, ?_⟩
          · rw [if_pos]
            · rw [fl_fin, add_fin]; simp
            · rw [sub_fin, GoFloat.gt, fl_fin, lt_fin]
              simpa using hlt
          · intro x hx
            have : x * limit ≤ (N / limit) * limit := Nat.mul_le_mul_right _ (by omega)
            have := Nat.div_mul_le_self N limit
            omega
          · intro _
            have := Nat.mod_lt N (Nat.pos_of_ne_zero hl)
            rw [Nat.add_mul, Nat.mul_comm]; omega
          · intro _
            left
            rw [Nat.add_sub_cancel, Nat.mul_comm]
            omega
  refine ⟨N, L, n, by rw [← sub_eq_iff_eq_add', hwin]; ring, hL1, hL2, hx, hn1, hcov, hn0, htight, ?_⟩
  have hmain : CalculateCandleDateRanges now start stop interval limit = (do
      let count ← goDiv (roundT interval stop - roundT interval start) interval
      let requests : XF ℚ := fl count /. fl (limit : Int)
      let (requests, limit) :=
        if requests <=. fl 1 then (fl 1, (limit : Int))
        else if (limit : Int) = 0 then ((fl 1 : XF ℚ), toUint32 count)
        else if requests -. fl (truncF requests) >. fl 0 then (requests +. fl 1, (limit : Int))
        else (requests, (limit : Int))
      let n := truncF requests
      let potential ← mk n IntervalRange.zero
      let (requestStart, _, potential) ← goFor 0 n (roundT interval start, count, potential)
        fun x (requestStart, count, potential) => do
          let r ← idx potential x
          let r := { r with start := CreateIntervalTime requestStart }
          let count := count - limit
          let (requestStart, ivs) ←
            fillIntervals interval (if count < 0 then count + limit else limit) requestStart
          let r := { r with intervals := ivs }
          let r := { r with stop := CreateIntervalTime requestStart }
          let potential ← setAt potential x r
          pure (requestStart, count, potential)
      pure (.ok { start := CreateIntervalTime (roundT interval start),
                  stop := CreateIntervalTime requestStart,
                  ranges := potential, limit := limit })) := by
    unfold CalculateCandleDateRanges
    rcases hs with hs | hs <;> (rw [hs]; simp only []; rw [if_neg (by omega)])
  rw [hmain, hcount, ok_bind]
  simp only [] at hrq
  simp only [hrq, hn, mk_nat, ok_bind]
  rw [rangeLoop_eq _ _ _ _ _ hx]
  rfl

/-- The intervals of all ranges, concatenated. -/
theorem flat_ranges (S iv : Int) (N L : Nat) (n : Nat) (h : ∀ x < n, x * L ≤ N) :
    (tab n (rangeAt S iv N L)).flatMap (·.intervals) = tab (min (n * L) N) (ivAt S iv) := by
  induction n with
  | zero => simp
  | succ n ih =>
    rw [tab_succ, List.flatMap_append, ih (fun x hx => h x (by omega))]
    have hn := h n (by omega)
    have hs : (n + 1) * L = n * L + L := by ring
    have e1 : min (n * L) N = n * L := by omega
    have e2 : min ((n + 1) * L) N = n * L + min L (N - n * L) := by omega
    rw [e1, e2]
    simp only [List.flatMap_cons, List.flatMap_nil, List.append_nil, rangeAt]
    symm
    refine (eq_tab_of_forall (by simp) ?_).symm
    intro i hi
    rw [List.getElem?_append]
    simp only [tab_length]
    split
    · next h => exact tab_getElem?_lt h
    · rw [tab_getElem?_lt (by omega)]
      congr 1
      unfold ivAt
      have e : i = n * L + (i - n * L) := by omega
      have a1 : S + ((n * L : Nat) : Int) * iv + ((i - n * L : Nat) : Int) * iv = S + (i : Int) * iv := by
        conv_rhs => rw [e]
        push_cast; ring
      have a2 : S + ((n * L : Nat) : Int) * iv + ((i - n * L + 1 : Nat) : Int) * iv
          = S + ((i + 1 : Nat) : Int) * iv := by
        conv_rhs => rw [e]
        push_cast; ring
      rw [a1, a2]

end Verif.Klines
