import Verif.Klines.Duration
import Verif.Klines.Types
import Verif.Go.Binary64

/-!
# Numbers as text: `Candle.String` and `FloatFromString`

The functions of `fmt`, `strconv` and `time` that these two call are written out from the standard library of Go 1.21.
-/

namespace Verif.Klines
open Verif GoFloat
open Verif.Ind (decN)

/-! ## Printing numbers -/

/-- The last `k` decimal digits of `v`, with leading zeros. -/
def padDigits : Nat → Nat → List Char
  | 0, _ => []
  | k + 1, v => padDigits k (v / 10) ++ [Nat.digitChar (v % 10)]

/-- A number that is not negative with `prec >= 1` decimals: the nearest multiple of `10^-prec`, halves to even
(Go, strconv/ftoa.go `bigFtoa`, `%e` and `%f` with a precision; strconv/decimal.go `shouldRoundUp`). -/
def fixedMag (prec : Nat) (q : ℚ) : List Char :=
  let n := (halfEven (q * 10 ^ prec)).toNat
  decN (n / 10 ^ prec) ++ '.' :: padDigits prec (n % 10 ^ prec)

/-- What `fmt` prints for `%.<prec>f` (Go, fmt/format.go `fmtFloat`); `%f` is `%.6f`. -/
def fmtFixed (prec : Nat) : B64 → List Char
  | .nan => ['N', 'a', 'N']
  | .inf neg => (if neg then '-' else '+') :: ['I', 'n', 'f']
  | .fin neg q _ => (if neg then ['-'] else []) ++ fixedMag prec q

/-! ## Reading numbers -/

/-- The value of a decimal digit. -/
def digitOf (c : Char) : Option Nat := if '0' ≤ c ∧ c ≤ '9' then some (c.toNat - '0'.toNat) else none

/-- The loop over the digits in `readFloat` (Go, strconv/atof.go): all digits as one number, how many of them stand behind the
point, whether there was a digit, and the rest of the text. -/
def readMant : List Char → Nat → Nat → Bool → Bool → Nat × Nat × Bool × List Char
  | [], m, k, _, saw => (m, k, saw, [])
  | c :: r, m, k, dot, saw =>
    if c = '.' then (if dot then (m, k, saw, c :: r) else readMant r m k true saw)
    else match digitOf c with
      | some d => readMant r (m * 10 + d) (if dot then k + 1 else k) dot true
      | none => (m, k, saw, c :: r)

/-- The loop over the digits of the exponent: digits after the fifth are read over. -/
def readExp : List Char → Nat → Option Nat
  | [], e => some e
  | c :: r, e =>
    match digitOf c with
    | some d => readExp r (if e < 10000 then e * 10 + d else e)
    | none => none

/-- A sign and what follows it. -/
def splitSign : List Char → Bool × List Char
  | '+' :: r => (false, r)
  | '-' :: r => (true, r)
  | r => (false, r)

/-- What follows the digits: nothing, or `e`, a sign and at least one digit. -/
def readTail : List Char → Option Int
  | [] => some 0
  | c :: r =>
    if c = 'e' ∨ c = 'E' then
      let (neg, ds) := splitSign r
      if ds.isEmpty then none else (readExp ds 0).map fun (e : Nat) => if neg then -(e : Int) else e
    else none

/-- The magnitude a text without sign names. -/
def readNumber (s : List Char) : Option ℚ :=
  let (m, k, saw, rest) := readMant s 0 0 false false
  if saw then (readTail rest).map fun e => (m : ℚ) * 10 ^ (e - (k : Int)) else none

/-- A text in small letters. -/
def lowerText (s : List Char) : List Char := s.map Char.toLower

/-- A number that has become an infinity is an error. -/
def notTooLarge : B64 → Option B64
  | .inf _ => none
  | x => some x

/-- `strconv.ParseFloat(s, 64)` (Go, strconv/atof.go), `none` for an error: a text that is no number, or a number too large
(for which the result is an infinity and `ErrRange`). Simplifications: hexadecimal texts and underscores between digits, which
Go accepts, are errors here; the result is the float64 nearest to the number, as documented, not the way it is found. -/
def parseFloat (s : List Char) : Option B64 :=
  let (neg, r) := splitSign s
  if lowerText r = ['i', 'n', 'f'] ∨ lowerText r = ['i', 'n', 'f', 'i', 'n', 'i', 't', 'y'] then some (.inf neg)
  else if lowerText s = ['n', 'a', 'n'] then some .nan
  else match readNumber r with
    | none => none
    | some q => notTooLarge (B64.ofMag neg q)

/-- The argument of `FloatFromString`: a string or a value of another type. -/
inductive Raw where
  | str (s : List Char)
  | other

/-- Models utils/commonutils/common.go:29-39 `FloatFromString`: the value, and whether the error is not nil. -/
def FloatFromString : Raw → B64 × Bool
  | .other => (fl 0, true)
  | .str s =>
    match parseFloat s with
    | none => (fl 0, true)
    | some x => (x, false)

/-! ## Printing instants -/

/-- `daysBefore[m]` (Go, time/time.go): days before month `m`, counted from 0, in a year of 365 days. -/
def daysBefore : List Nat := [0, 31, 59, 90, 120, 151, 181, 212, 243, 273, 304, 334, 365]

/-- `isLeap` (Go, time/time.go). -/
def isLeap (year : Int) : Bool := year % 4 = 0 && (year % 100 ≠ 0 || year % 400 = 0)

/-- The last part of `absDate` (Go, time/time.go): month and day from the day of the year, both counted from 0. -/
def monthDay (leap : Bool) (yday : Nat) : Nat × Nat :=
  if leap && yday = 59 then (2, 29)
  else
    let day := if leap && yday > 59 then yday - 1 else yday
    let month := day / 31
    let stop := daysBefore.getD (month + 1) 0
    if day ≥ stop then (month + 2, day - stop + 1) else (month + 1, day - daysBefore.getD month 0 + 1)

/-- `absDate` (Go, time/time.go): year and day of the year from the days since 1 January of year 1. Simplification: integers
instead of an unsigned count from the year -292277022399. -/
def yearDay (d : Int) : Int × Int :=
  let n := d / 146097
  let y := 400 * n
  let d := d - 146097 * n
  let n := d / 36524
  let n := n - n / 4
  let y := y + 100 * n
  let d := d - 36524 * n
  let n := d / 1461
  let y := y + 4 * n
  let d := d - 1461 * n
  let n := d / 365
  let n := n - n / 4
  (y + n + 1, d - 365 * n)

/-- `appendInt(b, x, width)` (Go, time/format.go). -/
def appendInt (x : Int) (width : Nat) : List Char :=
  let ds := decN x.natAbs
  (if x < 0 then ['-'] else []) ++ List.replicate (width - ds.length) '0' ++ ds

/-- `Format("2006-01-02 15:04:05")` of an instant `s` seconds after the Unix epoch on the clock of the place. -/
def stampText (s : Int) : List Char :=
  let days := s / 86400
  let sec := s % 86400
  let (year, yday) := yearDay (days + 719162)
  let (month, day) := monthDay (isLeap year) yday.toNat
  appendInt year 4 ++ '-' :: appendInt month 2 ++ '-' :: appendInt day 2 ++ ' ' :: appendInt (sec / 3600) 2 ++ ':' ::
    appendInt (sec % 3600 / 60) 2 ++ ':' :: appendInt (sec % 60) 2

/-- Models utils/klines/kline_type.go:89-91 `Candle.String`. `zone` is the time zone of the machine: how many seconds its clock is
ahead of UTC at an instant. -/
def candleString (zone : Int → Int) (e : Candle B64) : List Char :=
  stampText (e.timeUnix + zone e.timeUnix) ++ " Open:".toList ++ fmtFixed 6 e.open_ ++ " High:".toList ++ fmtFixed 6 e.high ++
    " Low:".toList ++ fmtFixed 6 e.low ++ " Close:".toList ++ fmtFixed 6 e.close ++ " Volume:".toList ++ fmtFixed 6 e.volume ++
    " Bull:".toList ++ (if e.isBull then "true".toList else "false".toList) ++ " ChangePercent:".toList ++
    fmtFixed 4 (e.changePercent *. fl 100) ++ ['%']

end Verif.Klines
