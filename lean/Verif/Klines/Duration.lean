import Verif.Ind.Names
import Mathlib.Data.Nat.Digits.Defs
import Mathlib.Algebra.Field.Rat
import Mathlib.Tactic.Ring
import Mathlib.Tactic.FieldSimp

/-!
# The text of an interval

`Interval.String` is `time.Duration.String` of the standard library of Go 1.21 (time/time.go), written out here. It is what
`%s` prints for an interval in the error texts of `ConvertToNewInterval`.
-/

namespace Verif.Klines
open Verif.Ind (decN)

/-- The loop of `fmtFrac` (Go, time/time.go): the last `prec` digits of `v`, written from the right before `buf`, without
trailing zeros. Returns the rest of `v`, whether a digit was printed, and the text. -/
def fracLoop : Nat → Nat → Bool → List Char → Nat × Bool × List Char
  | 0, v, printed, buf => (v, printed, buf)
  | prec + 1, v, printed, buf =>
    let digit := v % 10
    let printed := printed || digit != 0
    fracLoop prec (v / 10) printed (if printed then Nat.digitChar digit :: buf else buf)

/-- `fmtFrac` (Go, time/time.go). -/
def fmtFrac (buf : List Char) (v prec : Nat) : List Char × Nat :=
  let (v, printed, buf) := fracLoop prec v false buf
  (if printed then '.' :: buf else buf, v)

/-- `fmtInt` (Go, time/time.go): the digits of `v` before `buf`. -/
def fmtInt (buf : List Char) (v : Nat) : List Char := decN v ++ buf

/-- The text of a duration of less than a second, but not 0: one number and one of the small units. -/
def smallText (u : Nat) : List Char :=
  let (prec, unit) := if u < 1000 then (0, ['n', 's']) else if u < 1000000 then (3, ['µ', 's']) else (6, ['m', 's'])
  let (buf, v) := fmtFrac unit u prec
  fmtInt buf v

/-- The text of a duration of a second or more: hours and minutes only if there are any. -/
def largeText (u : Nat) : List Char :=
  let (buf, v) := fmtFrac ['s'] u 9
  let buf := fmtInt buf (v % 60)
  let v := v / 60
  if v > 0 then
    let buf := fmtInt ('m' :: buf) (v % 60)
    let v := v / 60
    if v > 0 then fmtInt ('h' :: buf) v else buf
  else buf

/-- Models utils/klines/kline.go:13-20 `Interval.String` with `time.Duration.String` (Go 1.21, time/time.go): `d` in
nanoseconds. Simplification: characters instead of bytes in a buffer of 32; the longest text, `-2562047h47m16.854775808s`, fits. -/
def intervalString (d : Int) : List Char :=
  let u := d.natAbs
  let text := if u < 1000000000 then (if u = 0 then ['0', 's'] else smallText u) else largeText u
  if d < 0 then '-' :: text else text

end Verif.Klines
