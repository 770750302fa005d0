import Verif.Go.Num

/-!
# Candles, items and instants
-/

namespace Verif.Klines
open Verif GoFloat

variable {F : Type}

/-- Models utils/klines/kline_type.go:73-87 `Candle`. -/
structure Candle (F : Type) where
  amount : F
  count : Int
  open_ : F
  close : F
  low : F
  high : F
  volume : F
  changePercent : F
  isBull : Bool
  timeUnix : Int
  deriving DecidableEq, Repr

/-- `&Candle{TimeUnix: t}`: all other fields zero. -/
def Candle.zero [GoFloat F] (t : Int) : Candle F :=
  { amount := fl 0, count := 0, open_ := fl 0, close := fl 0, low := fl 0, high := fl 0,
    volume := fl 0, changePercent := fl 0, isBull := false, timeUnix := t }

/-- Models utils/klines/kline_type.go:61-67 `Item` by value. Simplification: `[]*Candle` is the list of
the candles pointed to, so no candle pointer is nil and aliasing is not visible; the functions for
which aliasing matters are modelled in `Verif/Klines/Heap.lean`. -/
structure Item (F : Type) where
  exchange : String
  interval : Int
  symbol : String
  code : String
  candles : List (Candle F)
  deriving DecidableEq, Repr

/-- The error values of utils/klines/kline_type.go:46-58 and utils/commonutils/common.go:18-25 (the
wrapped text is not modelled). -/
inductive KErr where
  | nilKline
  | canOnlyUpscale
  | invalidInterval
  | wholeNumberScaling
  | notPadded
  | insufficientData
  | dateUnset
  | startAfterEnd
  | startEqualsEnd
  | startAfterNow
  deriving DecidableEq, Repr

/-- Nanoseconds per second (`time.Second`). -/
def nsec : Int := 1000000000

/-- `time.Time.Unix()`: whole seconds since the epoch, rounded down. Instants are nanoseconds since
the Unix epoch (the Go value also has a location, which these functions ignore). -/
def unix (t : Int) : Int := t / nsec

/-- `time.Unix(s, 0)`. -/
def ofUnix (s : Int) : Int := s * nsec

/-- Nanoseconds from the zero time (1 January of year 1, UTC) to the Unix epoch. -/
def zeroOffset : Int := 62135596800 * nsec

/-- The zero `time.Time`. -/
def zeroTime : Int := -zeroOffset

/-- `time.Time.Round(d)`: nearest multiple of `d` since the zero time, halves upwards. -/
def roundT (d t : Int) : Int :=
  if d ≤ 0 then t
  else
    let r := (t + zeroOffset) % d
    if r + r < d then t - r else t + (d - r)

end Verif.Klines
