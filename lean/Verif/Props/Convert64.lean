import Verif.Klines.Convert64
import Verif.Props.KlineConvert
import Verif.Props.Ranges64

/-!
# Upscaling with Go's durations and float64 (C15, C16)
-/

namespace Verif.Props
open Verif Verif.Klines GoFloat

/-- **C15, C16 (machine arithmetic).** When the candles span at most `2^32` seconds (136 years), the new interval is between
a millisecond and `2^31` seconds, and each of the two intervals is a whole number of seconds or below `2^24` seconds,
then neither the saturating `Time.Sub` nor the float64 of `Duration.Seconds` and of the number of requests makes a
difference: every statement about `ConvertToNewInterval` with exact arithmetic, successful or not, is one about the Go
function. -/
theorem C15_machine {F : Type} [GoFloat F] (now : Int) (e : Option (Item F)) (ni : Int)
    (hspan : ∀ it, e = some it → ∀ a ∈ it.candles, ∀ b ∈ it.candles, |a.timeUnix - b.timeUnix| ≤ 2 ^ 32)
    (hold : ∀ it, e = some it → nsec ∣ it.interval ∨ it.interval < 2 ^ 24 * nsec)
    (hnew : nsec ∣ ni ∨ ni < 2 ^ 24 * nsec) (hms : 1000000 ≤ ni) (hni : ni ≤ 2 ^ 31 * nsec) :
    ConvertToNewInterval64 now e ni = ConvertToNewInterval now e ni :=
  convert64_eq now e ni hspan hold hnew hms hni

/-- Five minutes of candles, two minutes at a time. -/
example : ConvertToNewInterval64 0 (some fiveMinutes) (120 * nsec) = ConvertToNewInterval 0 (some fiveMinutes) (120 * nsec) :=
  C15_machine 0 (some fiveMinutes) (120 * nsec) (by rintro _ ⟨⟩; decide +kernel)
    (by rintro _ ⟨⟩; exact Or.inl (by decide +kernel)) (Or.inl ⟨120, by ring⟩) (by decide) (by decide)

/-- **C15 (`int64(d.Seconds())`).** The conversion of durations drops exactly the fraction of a second for whole numbers of
seconds of any size and for all durations below `2^24` seconds. -/
theorem C15_seconds {d : Int} (h0 : 0 ≤ d) (hd : d < 2 ^ 63) (h : nsec ∣ d ∨ d < 2 ^ 24 * nsec) :
    seconds64 d = d / nsec := by
  rw [seconds64_eq h0 hd h, wholeSeconds, Int.tdiv_eq_ediv_of_nonneg h0]

example : seconds64 (90 * nsec + 999999999) = 90 ∧ seconds64 (9223372036 * nsec) = 9223372036 := by decide +kernel

/-- **C15, the bound is sharp.** At `2^24` seconds and 999999999 nanoseconds the float64 is rounded up to the next
second. -/
theorem C15_seconds_refuted : seconds64 (2 ^ 24 * nsec + 999999999) = 2 ^ 24 + 1 := by decide +kernel

/-- **C15, longer series.** A series that spans 292 years (`2^63` nanoseconds) or more is refused as not padded, however
complete it is, unless it has exactly as many candles as fit into 292 years. -/
theorem C15_long_refused {F : Type} [GoFloat F] (now : Int) (it : Item F) (ni : Int) (first last : Candle F)
    (h0 : 0 < it.interval) (h1 : it.interval < ni) (hd : it.interval ∣ ni)
    (hf : it.candles[0]? = some first) (hl : it.candles[it.candles.length - 1]? = some last)
    (hspan : 2 ^ 63 ≤ (last.timeUnix - first.timeUnix) * nsec + it.interval)
    (hlen : (it.candles.length : Int) ≠ (2 ^ 63 - 1) / it.interval) :
    ConvertToNewInterval64 now (some it) ni = .ok (.error .notPadded) := by
  have hpos : 0 < it.candles.length := by
    by_contra h
    rw [List.getElem?_eq_none (by omega)] at hf
    cases hf
  have i0 : idx it.candles 0 = .ok first := by
    simp only [idx, le_refl, if_true, Int.toNat_zero, hf]
  have i1 : idx it.candles ((it.candles.length : Int) - 1) = .ok last := by
    have : ((it.candles.length : Int) - 1).toNat = it.candles.length - 1 := by omega
    rw [idx, if_pos (by omega), this, hl]
  have hm : goMod ni it.interval = .ok 0 := by
    rw [goMod, if_neg (by omega)]
    exact congrArg Except.ok (Int.tmod_eq_zero_of_dvd hd)
  have hs : subSat (ofUnix last.timeUnix + it.interval) (ofUnix first.timeUnix) = 2 ^ 63 - 1 := by
    have : ofUnix last.timeUnix + it.interval - ofUnix first.timeUnix = (last.timeUnix - first.timeUnix) * nsec + it.interval := by
      unfold ofUnix; ring
    unfold subSat
    rw [this]
    omega
  have hg : goDiv (2 ^ 63 - 1) it.interval = .ok ((2 ^ 63 - 1) / it.interval) := by
    rw [goDiv, if_neg (by omega), Int.tdiv_eq_ediv_of_nonneg (by norm_num)]
  rw [ConvertToNewInterval64]
  simp only
  rw [if_neg (by omega), if_neg (by omega), if_neg (by omega), hm, ok_bind, if_neg (by simp), i0, ok_bind]
  simp only [i1, ok_bind, hs, hg]
  rw [if_pos (Ne.symm hlen)]
  rfl

/-- Three hundred yearly candles without a gap. -/
def threeCenturies : Item (XF ℚ) :=
  { exchange := "x", interval := yearNs, symbol := "s", code := "c", candles := tab 300 fun i => Candle.zero ((i : Int) * 31536000) }

/-- They are not merged two by two, but refused as not padded. -/
example : ConvertToNewInterval64 0 (some threeCenturies) (2 * yearNs) = .ok (.error .notPadded) :=
  C15_long_refused 0 threeCenturies _ (Candle.zero 0) (Candle.zero (299 * 31536000)) (by decide) (by decide) ⟨2, mul_comm _ _⟩ (by decide +kernel)
    (by decide +kernel) (by decide +kernel) (by decide +kernel)

end Verif.Props
