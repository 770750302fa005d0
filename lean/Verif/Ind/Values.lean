import Verif.Ind.Signals
import Verif.Ind.Volume
import Verif.Ind.Trend3

/-!
# The value lists

The bodies of the methods that return the fields of the records as slices, after their first three lines
(`Obj.ensure`): a reading method of an object `e` is `e.read body`. `Kdj.GetListK/D/J` test the length of the data
differently and stand in `Verif/Ind/Trend3.lean` (`KDJ.GetList`).
-/

set_option linter.unusedSectionVars false

namespace Verif.Ind
open Verif Verif.Klines Verif.Ta GoFloat

variable {F : Type} [GoMath F]

/-- `for _, v := range e.data { a = append(a, p(v)); b = append(b, q(v)) }` on nil results. -/
def pairAppend {D : Type} (p q : D → F) (data : List D) : Go (List F × List F) :=
  goFor 0 data.length ([], []) fun i ab => do
    let v ← idx data i
    pure (ab.1 ++ [p v], ab.2 ++ [q v])

/-- `for i, v := range e.data { a[i] = p(v); b[i] = q(v) }` on slices made with `len(e.data)`. -/
def pairLoop {D : Type} (p q : D → F) (data : List D) : Go (List F × List F) := do
  let a ← mk (data.length : Int) (fl 0)
  let b ← mk (data.length : Int) (fl 0)
  goFor 0 data.length (a, b) fun i ab => do
    let v ← idx data i
    let a ← setAt ab.1 i (p v)
    let b ← setAt ab.2 i (q v)
    pure (a, b)

/-- trend/AiCoinCCI.go:117-127 `GetValue`. -/
def AiCCI.values (period : Int) (_ : (AiCCI (F := F) period).S) (d : List (Rec F)) : Go (List F) :=
  valuesAppend Rec.value d

/-- trend/Cci.go:188-198 `GetValue`. -/
def CCIi.values (period smaPeriod : Int) (_ : (CCIi (F := F) period smaPeriod).S) (d : List (Rec F)) : Go (List F) :=
  valuesAppend Rec.value d

/-- trend/Rsi.go:91-101 `GetValue`. -/
def RSI.values (period : Int) (_ : (RSI (F := F) period).S) (d : List (Rec F)) : Go (List F) :=
  valuesAppend Rec.value d

/-- trend/UTBot.go:139-147 `GetValues`. -/
def UT.values (period atrPeriod : Int) (_ : (UT (F := F) period atrPeriod).S) (d : List (UT.Data F)) : Go (List F) :=
  valuesAppend UT.Data.value d

/-- trend/Sma.go:66-76 `GetValues`. -/
def SMA.values (period : Int) (_ : (SMA (F := F) period).S) (d : List (Rec F)) : Go (List F) :=
  valuesLoop Rec.value d

/-- trend/Ema.go:66-75 `GetValues`. -/
def EMA.values (period : Int) (_ : (EMA (F := F) period).S) (d : List (Rec F)) : Go (List F) :=
  valuesLoop Rec.value d

/-- trend/Dema.go:81-90 `GetValues`. -/
def DEMA.values (period : Int) (_ : (DEMA (F := F) period).S) (d : List (Rec F)) : Go (List F) :=
  valuesLoop Rec.value d

/-- trend/LinearRegressionCandles.go:102-112 `GetValues`: the signal line. -/
def LRC.values (smoothing len : Int) (sma : Bool) (_ : (LRC (F := F) smoothing len sma).S) (d : List (LRC.Data F)) :
    Go (List F) := valuesLoop LRC.Data.signal d

/-- trend/Macd.go:126-135 `GetDifs`. -/
def MACD.difs (a b c : Int) (_ : (MACD (F := F) a b c).S) (d : List (MACD.Data F)) : Go (List F) :=
  valuesLoop MACD.Data.dif d

/-- trend/Macd.go:138-147 `GetMACDs`. -/
def MACD.macds (a b c : Int) (_ : (MACD (F := F) a b c).S) (d : List (MACD.Data F)) : Go (List F) :=
  valuesLoop MACD.Data.macd d

/-- oscillator/VolumeOscillator.go:78-87 `GetValues`. -/
def VolOsc.values (a b : Int) (_ : (VolOsc (F := F) a b).S) (d : List (Rec F)) : Go (List F) :=
  valuesLoop Rec.value d

/-- volume/AccumulationDistribution.go:80-89 `GetValues`. -/
def AD.values (_ : (AD (F := F)).S) (d : List (Rec F)) : Go (List F) :=
  valuesLoop Rec.value d

/-- trend/SuperTrend.go:152-161 `GetValues`. -/
def ST.values (p m : Int) (c : Bool) (_ : (ST (F := F) p m c).S) (d : List (ST.Data F)) : Go (List F × List F) :=
  pairAppend ST.Data.up ST.Data.down d

/-- trend/PivotPointSuperTrend.go:133-142 `GetValues`. -/
def PPST.values (p a : Int) (f : F) (_ : (PPST (F := F) p a f).S) (d : List (ST.Data F)) : Go (List F × List F) :=
  pairAppend ST.Data.up ST.Data.down d

/-- trend/Atr.go:104-113 `GetValues`. -/
def ATR.values (p : Int) (_ : (ATR (F := F) p).S) (d : List (ATR.Data F)) : Go (List F × List F) :=
  pairAppend ATR.Data.tr ATR.Data.atr d

/-- trend/TraderXO.go:83-94 `GetValues`. -/
def XO.values (a b : Int) (_ : (XO (F := F) a b).S) (d : List (XO.Data F)) : Go (List F × List F) :=
  pairLoop XO.Data.fast XO.Data.slow d

/-- oscillator/StochasticOscillator.go:117-128 `GetValues`. -/
def Stoch.values (p : Int) (_ : (Stoch (F := F) p).S) (d : List (KD F)) : Go (List F × List F) :=
  pairLoop KD.k KD.d d

/-! ## Closed forms -/

/-- Every non-empty list is a table. -/
theorem cons_tab {D : Type} (a : D) (t : List D) : ∃ n f, a :: t = tab n f := by
  refine ⟨(a :: t).length, fun i => (a :: t)[i]?.getD a, List.ext_getElem? fun i => ?_⟩
  by_cases h : i < (a :: t).length
  · rw [tab_getElem?_lt h, List.getElem?_eq_getElem h]; rfl
  · rw [List.getElem?_eq_none (by omega), List.getElem?_eq_none (by rw [tab_length]; omega)]

theorem valuesLoop_eq {D : Type} (p : D → F) (d : List D) : valuesLoop p d = .ok (d.map p) := by
  cases d with
  | nil => rfl
  | cons a t => obtain ⟨n, f, e⟩ := cons_tab a t; rw [e, valuesLoop_tab, map_tab]

theorem valuesAppend_eq {D : Type} (p : D → F) (d : List D) : valuesAppend p d = .ok (d.map p) := by
  cases d with
  | nil => rfl
  | cons a t => obtain ⟨n, f, e⟩ := cons_tab a t; rw [e, valuesAppend_tab, map_tab]

theorem pairAppend_eq {D : Type} (p q : D → F) (d : List D) : pairAppend p q d = .ok (d.map p, d.map q) := by
  cases d with
  | nil => rfl
  | cons a t =>
    obtain ⟨n, f, e⟩ := cons_tab a t
    rw [e, pairAppend, tab_length, map_tab, map_tab,
      goFor_acc₀ (S := fun k => (tab k fun i => p (f i), tab k fun i => q (f i))) (by simp)]
    intro k hk
    simp only [idx_tab hk, ok_bind, pure_eq_ok, tab_succ]

theorem pairLoop_eq {D : Type} (p q : D → F) (d : List D) : pairLoop p q d = .ok (d.map p, d.map q) := by
  cases d with
  | nil => rfl
  | cons a t =>
    obtain ⟨n, f, e⟩ := cons_tab a t
    rw [e, pairLoop, tab_length, map_tab, map_tab, mk_nat, ok_bind, ok_bind,
      goFor_acc₀ (S := fun k => (filled n k (fun i => p (f i)) (fl 0), filled n k (fun i => q (f i)) (fl 0)))
        (by rw [← filled_zero, ← filled_zero]), filled_full, filled_full]
    intro k hk
    simp only [idx_tab hk, ok_bind, pure_eq_ok]
    rw [setAt_filled hk rfl, ok_bind, setAt_filled hk rfl, ok_bind]

end Verif.Ind
