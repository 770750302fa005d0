import Verif.Ind.Run
import Verif.Ind.Defaults

/-!
# The program

`main` runs eleven strategies on one series and prints a table of their signals.
-/

namespace Verif.Ind
open Verif Verif.Klines Verif.Ta GoFloat

section
variable {F : Type} [GoMath F]

/-- The strategies of main.go:18-28, in this order. -/
def mainStrats : List (Strat F) :=
  [NewDefaultMacd, NewDefaultKdj, NewAbsolutePriceOscillator, NewDefaultCci, NewDefaultRsi, NewAwesomeOscillator,
    NewDefaultChaikinOscillator, NewDefaultIchimokuCloud, NewDefaultPercentagePriceOscillator,
    NewDefaultStochasticOscillator, NewDefaultWilliamsR]

/-- The strategy constructed at each address. -/
def mainStrat (a : Nat) : Strat F := mainStrats[a]?.getD NewDefaultMacd

end

/-- The `Name` fields the constructors of `mainStrats` set: trend/Macd.go:49, trend/Kdj.go:33,
oscillator/AbsolutePriceOscillator.go:29, trend/Cci.go:55, trend/Rsi.go:28, oscillator/AwesomeOscillator.go:31,
oscillator/ChaikinOscillator.go:37, oscillator/IchimokuCloud.go:46, oscillator/PercentagePriceOscillator.go:40,
oscillator/StochasticOscillator.go:37, oscillator/WilliamsR.go:35. -/
def mainNames : List String :=
  ["Macd12-9-26", "Kdj9", "AbsolutePriceOscillator", "CCI20-SMA20", "Rsi14", "AwesomeOscillator",
    "ChaikinOscillator3-10", "IchimokuCloud20-60-120", "PercentagePriceOscillator12-26-9", "StochasticOscillator14",
    "WilliamsR14"]

/-- main.go:57: the bytes 27 91 51 50 109. -/
def green : String := "\x1b[32m"
/-- main.go:60: the bytes 27 91 51 49 109. -/
def red : String := "\x1b[31m"
/-- main.go:64: the bytes 27 91 48 109. -/
def reset : String := "\x1b[0m"

/-- Models main.go:68-77 `getColorSide`. -/
def getColorSide (s : Side) : String :=
  if s = Buy then green ++ s.name ++ reset
  else if s = Sell then red ++ s.name ++ reset
  else s.name

/-- What one `Printf` call of main.go:39-44 shows. Simplification: the values are kept, the text of the number (`%.2f`)
and of the time is not modelled. -/
structure Row (F : Type) where
  no : Int
  time : Int
  close : F
  /-- the joined `strategiesSidesMessages` -/
  cells : String
  deriving DecidableEq, Repr

section
variable {F : Type} [GoMath F]

/-- The constructor calls of main.go:18-28 on the same item: eleven new objects. -/
def mainHeap (list : Item F) : Go (Heap (mainStrat (F := F))) :=
  goFor 0 (mainStrats (F := F)).length (fun _ => none) fun a h => do
    let e ← (mainStrat a.toNat).toIndicator.new list
    pure (Function.update h a.toNat (some e))

/-- One line of the table, main.go:31-44; `range strategiesSides` with `append`. -/
def mainRow (sides : List SideData) (i : Int) (v : Candle F) : Go (Row F) := do
  let msgs ← goFor 0 sides.length [] fun j msgs => do
    let m ← idx sides j
    let s ← idx m.data i
    pure (msgs ++ [m.name ++ ":" ++ getColorSide s])
  pure ⟨i + 1, v.timeUnix, v.close, "\t".intercalate msgs⟩

/-- Models main.go:13-47 `main` after `GetTestKlineItem` has read its file: the printed rows. -/
def main (list : Item F) : Go (List (Row F)) := do
  let h ← mainHeap list
  let (sides, _) ← RunStrategies mainStrat (fun a => mainNames[a]?.getD "") h
    ((List.range (mainStrats (F := F)).length).map some)
  goFor 0 list.candles.length [] fun i rows => do
    let v ← idx list.candles i
    let r ← mainRow sides i v
    pure (rows ++ [r])

end
end Verif.Ind
