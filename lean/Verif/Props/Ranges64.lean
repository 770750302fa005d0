import Verif.Klines.Ranges64

/-!
# Date ranges with Go's durations and float64 (C13, C97)
-/

namespace Verif.Props
open Verif Verif.Klines GoFloat

/-- **C13 (machine arithmetic).** For windows below 292 years (`2^63` nanoseconds) and at most `2^51` intervals the
saturating `Time.Sub` and the number of requests computed in float64 make no difference: every statement about
`CalculateCandleDateRanges` with exact arithmetic is one about the Go function. -/
theorem C13_machine (now start stop interval : Int) (limit : Nat) (hl : limit < 2 ^ 32)
    (hw : roundT interval stop - roundT interval start < 2 ^ 63)
    (hc : roundT interval stop - roundT interval start ≤ 2 ^ 51 * interval) :
    CandleDateRanges64 now start stop interval limit = CalculateCandleDateRanges now start stop interval limit :=
  ranges64_eq now start stop interval limit hl hw hc

/-- A year of 365 days, in nanoseconds. -/
def yearNs : Int := 31536000000000000

/-- A window of ten years in requests of three meets the hypotheses. -/
example : CandleDateRanges64 0 1 (10 * yearNs) yearNs 3 = CalculateCandleDateRanges 0 1 (10 * yearNs) yearNs 3 :=
  C13_machine 0 1 (10 * yearNs) yearNs 3 (by norm_num) (by decide +kernel) (by decide +kernel)

/-- **C13, longer windows.** The ranges of a window of 400 years in intervals of a year end after 292 years. -/
theorem C13_saturation_refuted :
    (CandleDateRanges64 0 (-400 * yearNs) (-1) yearNs 100).map (fun r => match r with
      | .ok h => some ((h.ranges.map fun r => r.intervals.length), roundT yearNs (-1) - h.stop.time)
      | .error _ => none) = .ok (some ([100, 100, 92], 108 * yearNs)) := by
  decide +kernel

/-- **C97 (machine arithmetic).** With the saturating `Time.Sub`, `TotalCandlesPerInterval` counts the whole intervals
of windows up to 292 years, and for longer windows always those of 292 years. -/
theorem C97_machine (start stop interval : Int) :
    (|stop - start| < 2 ^ 63 → TotalCandles64 start stop interval = TotalCandlesPerInterval start stop interval) ∧
    (2 ^ 63 ≤ stop - start → 0 < interval → TotalCandles64 start stop interval = .ok ((2 ^ 63 - 1) / interval)) := by
  constructor
  · intro h
    obtain ⟨h1, h2⟩ := abs_lt.mp h
    have : subSat stop start = stop - start := by unfold subSat; omega
    rw [TotalCandles64, TotalCandlesPerInterval, this]
  · intro h hi
    have : subSat stop start = 2 ^ 63 - 1 := by unfold subSat; omega
    rw [TotalCandles64, if_neg (by omega), this, goDiv, if_neg (by omega), Int.tdiv_eq_ediv_of_nonneg (by norm_num)]

example : TotalCandles64 0 (300 * yearNs) yearNs = .ok 292 ∧ TotalCandles64 0 (200 * yearNs) yearNs = .ok 200 := by
  decide +kernel

end Verif.Props
