import Verif.Ind.Signals
import Verif.Ind.Trend3

/-!
# Objects built from price columns

Ten indicators have a second constructor that takes the columns instead of the candles.
-/

namespace Verif.Ind
open Verif Verif.Klines Verif.Ta GoFloat

variable {F : Type}

/-- Models the constructors `New...OHLC(ohlc, ...)`: trend/AverageDirectionalIndex.go:47-55, trend/BreakoutProbability.go:62-77,
trend/Dema.go:38-45, trend/EMAVegas.go:49-60, trend/LinearRegressionCandles.go:42-51, trend/PivotPointSuperTrend.go:48-57,
trend/SuperTrend.go:48-58 (columns and `hl2`), trend/TraderXO.go:39-47, trend/UTBot.go:41-49: the columns are stored as they
come, `data` is nil. Simplification: the object keeps a copy of the columns, not the caller's pointer; a nil pointer is left
out. -/
def Indicator.ofColumns (I : Indicator F) (s : I.S) : Obj I := { src := s, data := [] }

/-- `New...OHLC(...).GetData()`. -/
def Indicator.columnData (I : Indicator F) (s : I.S) : Go (List I.D) := do
  let (d, _) ← (I.ofColumns s).GetData
  pure d

/-- `New...OHLC(...).AnalysisSide()`. -/
def Strat.columnSignals (I : Strat F) (s : I.S) : Go (List Side) := do
  let (d, _) ← I.AnalysisSide (I.ofColumns s)
  pure d

theorem Indicator.columnData_eq (I : Indicator F) (s : I.S) : I.columnData s = I.compute s [] := by
  simp only [Indicator.columnData, Indicator.ofColumns, Obj.GetData, Obj.read, Obj.ensure, List.length_nil, if_true,
    Obj.Calculation]
  cases I.compute s [] <;> rfl

theorem Strat.columnSignals_eq (I : Strat F) (s : I.S) :
    I.columnSignals s = (do let d ← I.compute s []; I.sides s d) := by
  simp only [Strat.columnSignals, Strat.AnalysisSide, Indicator.ofColumns, Obj.read, Obj.ensure, List.length_nil, if_true,
    Obj.Calculation]
  cases I.compute s [] with
  | error e => rfl
  | ok d => simp only [ok_bind, pure_eq_ok]; cases I.sides s d <;> rfl

theorem Indicator.data_of_source {I : Indicator F} {it : Item F} {s : I.S} (h : I.source it = .ok s) :
    I.data it = I.columnData s := by
  simp only [Indicator.data, Indicator.new, h, ok_bind]; rfl

theorem Strat.signals_of_source {I : Strat F} {it : Item F} {s : I.S} (h : I.source it = .ok s) :
    I.signals it = I.columnSignals s := by
  simp only [Strat.signals, Indicator.new, h, ok_bind]; rfl

end Verif.Ind
