import Verif.Ind.Osc

/-!
# Indicators of `trend/`, first part
-/

set_option linter.unusedSectionVars false

namespace Verif.Ind
open Verif Verif.Klines Verif.Ta GoFloat

variable {F : Type} [GoFloat F]

/-! ## Sma, Ema, Dema, Rma, Ma -/

/-- Models trend/Sma.go:40-55 `Calculation`. -/
def SMA.Calculation (period : Int) (e : Item F) (_ : List (Rec F)) : Go (List (Rec F)) := do
  let ohlc ← GetOHLC e
  let smas ← Ta.Sma period ohlc.close
  makeLoop e.candles.length smas.length Rec.zero fun i => do
    let t ← candleTime e i
    let v ← idx smas i
    pure ⟨t, v⟩

/-- `Sma`. -/
abbrev SMA (period : Int) : Indicator F := recInd (SMA.Calculation period)

/-- The record of one candle. -/
def SMA.out (period : Int) (x : Nat → Candle F) (i : Nat) : Rec F := ⟨ti x i, smaF period.toNat (cl x) i⟩

theorem SMA.makes (period : Int) : Makes (SMA (F := F) period) (okS period) (SMA.out period) := by
  intro it n x hx
  have hl : it.candles.length = n := by rw [hx, tab_length]
  refine ⟨it, rfl, fun h data => ?_, fun h data => ?_⟩
  · show SMA.Calculation period it data = _
    simp only [SMA.Calculation, GetOHLC_tab hx, ohlcOf, Sma_ok _ h, ok_bind, tab_length, hl]
    exact makeLoop_tab _ fun k hk => by simp only [candleTime_tab hx hk, idx_tab hk, ok_bind]; rfl
  · show ∃ p, SMA.Calculation period it data = _
    simp only [SMA.Calculation, GetOHLC_tab hx, ohlcOf, ok_bind]
    exact err_bind (Sma_err _ h)

/-- Models trend/Sma.go:66-76 `GetValues` of a new object. -/
def SMA.GetValues (period : Int) (it : Item F) : Go (List F) :=
  (SMA period).get (fun _ d => valuesLoop Rec.value d) it

theorem SMA.GetValues_ok {period : Int} {it : Item F} {n : Nat} {x : Nat → Candle F}
    (hx : it.candles = tab n x) (h : okS period n) :
    SMA.GetValues period it = .ok (tab n (smaF period.toNat (cl x))) :=
  (Indicator.get_of_data (I := SMA period) rfl (((SMA.makes period).yields it n x hx).1 h)).trans
    (valuesLoop_tab ..)

theorem SMA.GetValues_err {period : Int} {it : Item F} {n : Nat} {x : Nat → Candle F}
    (hx : it.candles = tab n x) (h : ¬ okS period n) : ∃ p, SMA.GetValues period it = .error p := by
  obtain ⟨p, hp⟩ := ((SMA.makes period).yields it n x hx).2 h
  exact ⟨p, Indicator.get_of_error hp⟩

/-- Models trend/Ema.go:40-55 `Calculation`. -/
def EMA.Calculation (period : Int) (e : Item F) (_ : List (Rec F)) : Go (List (Rec F)) := do
  let ohlc ← GetOHLC e
  let vals ← Ta.Ema period ohlc.close
  makeLoop vals.length e.candles.length Rec.zero fun i => do
    let t ← candleTime e i
    let v ← idx vals i
    pure ⟨t, v⟩

/-- `Ema`. -/
abbrev EMA (period : Int) : Indicator F := recInd (EMA.Calculation period)

/-- The record of one candle. -/
def EMA.out (period : Int) (x : Nat → Candle F) (i : Nat) : Rec F := ⟨ti x i, emaF period (cl x) i⟩

theorem EMA.makes (period : Int) : Makes (EMA (F := F) period) (fun _ => True) (EMA.out period) := by
  intro it n x hx
  have hl : it.candles.length = n := by rw [hx, tab_length]
  refine ⟨it, rfl, fun _ data => ?_, fun h => absurd trivial h⟩
  show EMA.Calculation period it data = _
  simp only [EMA.Calculation, GetOHLC_tab hx, ohlcOf, Ema_tab, ok_bind, tab_length, hl]
  exact makeLoop_tab _ fun k hk => by simp only [candleTime_tab hx hk, idx_tab hk, ok_bind]; rfl

/-- Models trend/Ema.go:66-75 `GetValues` of a new object. -/
def EMA.GetValues (period : Int) (it : Item F) : Go (List F) :=
  (EMA period).get (fun _ d => valuesLoop Rec.value d) it

theorem EMA.GetValues_tab {period : Int} {it : Item F} {n : Nat} {x : Nat → Candle F}
    (hx : it.candles = tab n x) : EMA.GetValues period it = .ok (tab n (emaF period (cl x))) :=
  (Indicator.get_of_data (I := EMA period) rfl (((EMA.makes period).yields it n x hx).1 trivial)).trans
    (valuesLoop_tab ..)

/-- Stores `{Time, Value}` records whose time comes from the `TimeUnix` column. -/
def makeRecsO (o : OHLC F) (len : Int) (vals : List F) : Go (List (Rec F)) :=
  makeLoop len vals.length Rec.zero fun i => do
    let t ← idx o.timeUnix i
    let v ← idx vals i
    pure ⟨t, v⟩

/-- Models trend/Dema.go:53-70 `Calculation`. The slice holds pointers to fresh records; the model stores
the records. -/
def DEMA.Calculation (period : Int) (o : OHLC F) (_ : List (Rec F)) : Go (List (Rec F)) := do
  let demas ← Ta.Dema period o.close
  makeRecsO o o.close.length demas

/-- `Dema`. -/
abbrev DEMA (period : Int) : Indicator F :=
  { S := OHLC F, D := Rec F, source := GetOHLC, compute := DEMA.Calculation period }

/-- The record of one candle. -/
def DEMA.out (period : Int) (x : Nat → Candle F) (i : Nat) : Rec F := ⟨ti x i, demaF period (cl x) i⟩

theorem DEMA.makes (period : Int) : Makes (DEMA (F := F) period) (fun _ => True) (DEMA.out period) := by
  intro it n x hx
  refine ⟨_, GetOHLC_tab hx, fun _ data => ?_, fun h => absurd trivial h⟩
  show DEMA.Calculation period _ data = _
  simp only [DEMA.Calculation, ohlcOf, Dema_tab, ok_bind, tab_length, makeRecsO]
  exact makeLoop_tab _ fun k hk => by simp only [idx_tab hk, ok_bind]; rfl

/-- Models trend/Rma.go:39-53 `Calculation`: the records are appended to a slice that `make` already
filled with zero records. -/
def RMA.Calculation (period : Int) (e : Item F) (_ : List (Rec F)) : Go (List (Rec F)) := do
  let ohlc ← GetOHLC e
  let rma ← Ta.Rma period ohlc.close
  let d ← mk rma.length Rec.zero
  appendRecs e rma d

/-- `Rma`. -/
abbrev RMA (period : Int) : Indicator F := recInd (RMA.Calculation period)

/-- The `n` records that carry values. -/
def RMA.out (period : Int) (x : Nat → Candle F) (i : Nat) : Rec F := ⟨ti x i, rmaF period (cl x) i⟩

/-- `Rma.Calculation` yields `n` zero records followed by the `n` value records. -/
theorem RMA.run (period : Int) {it : Item F} {n : Nat} {x : Nat → Candle F} (hx : it.candles = tab n x)
    (data : List (Rec F)) :
    RMA.Calculation period it data = .ok (List.replicate n Rec.zero ++ tab n (RMA.out period x)) := by
  simp only [RMA.Calculation, GetOHLC_tab hx, ohlcOf, Rma_tab, ok_bind, tab_length, mk_nat,
    appendRecs_tab hx]
  rfl

/-- Models trend/Ma.go:49-63 `Calculation`. -/
def MAi.Calculation (period : Int) (e : Item F) (data : List (Rec F)) : Go (List (Rec F)) := do
  let ohlc ← GetOHLC e
  let ma ← Ta.Sma period ohlc.close
  appendRecs e ma data

/-- `Ma`. -/
abbrev MAi (period : Int) : Indicator F := recInd (MAi.Calculation period)

theorem MAi.appends (period : Int) : Appends (MAi (F := F) period) (okS period) (SMA.out period) := by
  intro it n x hx
  refine ⟨it, rfl, fun h data => ?_, fun h data => ?_⟩
  · show MAi.Calculation period it data = _
    simp only [MAi.Calculation, GetOHLC_tab hx, ohlcOf, Sma_ok _ h, ok_bind, appendRecs_tab hx]
    rfl
  · show ∃ p, MAi.Calculation period it data = _
    simp only [MAi.Calculation, GetOHLC_tab hx, ohlcOf, ok_bind]
    exact err_bind (Sma_err _ h)

/-! ## Macd -/

/-- Models trend/Macd.go `MacdData`. -/
structure MACD.Data (F : Type) where
  time : Int
  dif : F
  dea : F
  macd : F
  deriving DecidableEq, Repr

/-- The zero record. -/
def MACD.zero : MACD.Data F := ⟨zeroUnix, fl 0, fl 0, fl 0⟩

/-- Models trend/Macd.go:64-87 `Calculation`. -/
def MACD.Calculation (shortP signalP longP : Int) (e : Item F) (_ : List (MACD.Data F)) :
    Go (List (MACD.Data F)) := do
  let ohlc ← GetOHLC e
  let s ← Ta.Ema shortP ohlc.close
  let l ← Ta.Ema longP ohlc.close
  let difs ← Subtract s l
  let deas ← Ta.Ema signalP difs
  makeLoop e.candles.length difs.length MACD.zero fun i => do
    let dif ← idx difs i
    let t ← candleTime e i
    let dea ← idx deas i
    pure ⟨t, dif, dea, (dif -. dea) *. fl 2⟩

/-- The rule of trend/Macd.go:102-108. -/
def MACD.rule (prev v : MACD.Data F) : Side :=
  if v.dif >. fl 0 && v.dea >. fl 0 && v.dif >. v.dea && prev.dif <. prev.dea then Buy
  else if v.dif <. fl 0 && v.dea <. fl 0 && v.dif <. v.dea && prev.dif >. prev.dea then Sell
  else Hold

/-- Models trend/Macd.go:90-115 `AnalysisSide`. -/
def MACD.sides (e : Item F) (data : List (MACD.Data F)) : Go (List Side) :=
  sideLoop e.candles.length 1 data fun _ prev v => pure (MACD.rule prev v)

/-- `Macd`. -/
abbrev MACD (shortP signalP longP : Int) : Strat F :=
  { S := Item F, D := MACD.Data F, source := pure, compute := MACD.Calculation shortP signalP longP,
    sides := MACD.sides }

/-- The difference line. -/
def difF (shortP longP : Int) (x : Nat → Candle F) (i : Nat) : F :=
  subF (emaF shortP (cl x) i) (emaF longP (cl x) i)

/-- The record of one candle. -/
def MACD.out (shortP signalP longP : Int) (x : Nat → Candle F) (i : Nat) : MACD.Data F :=
  ⟨ti x i, difF shortP longP x i, emaF signalP (difF shortP longP x) i,
    (difF shortP longP x i -. emaF signalP (difF shortP longP x) i) *. fl 2⟩

theorem MACD.makes (shortP signalP longP : Int) :
    Makes (MACD (F := F) shortP signalP longP).toIndicator (fun _ => True) (MACD.out shortP signalP longP) := by
  intro it n x hx
  have hl : it.candles.length = n := by rw [hx, tab_length]
  refine ⟨it, rfl, fun _ data => ?_, fun h => absurd trivial h⟩
  show MACD.Calculation shortP signalP longP it data = _
  simp only [MACD.Calculation, GetOHLC_tab hx, ohlcOf, Ema_tab, Subtract_tab, Nat.le_refl, if_true, ok_bind,
    tab_length, hl]
  exact makeLoop_tab _ fun k hk => by simp only [candleTime_tab hx hk, idx_tab hk, ok_bind]; rfl

/-! ## AiCoinCCI, Cci -/

/-- Models trend/AiCoinCCI.go:62-76 `Calculation` (the field `factor` is always 0.015). -/
def AiCCI.Calculation (period : Int) (e : Item F) (data : List (Rec F)) : Go (List (Rec F)) := do
  let ohlc ← GetOHLC e
  let ccis ← Ta.AiCoinCCI ohlc.close period (lit (15 / 1000))
  appendRecs e ccis data

/-- Models trend/AiCoinCCI.go:79-105 `AnalysisSide`; the same text is in Cci.go:150-176. -/
def CCIi.sides (e : Item F) (data : List (Rec F)) : Go (List Side) :=
  sideLoop e.candles.length 1 data fun _ prev v =>
    pure (if v.value <. fl (-100) && prev.value >. fl (-100) then Buy
      else if v.value >. fl 100 && prev.value <. fl 100 then Sell else Hold)

/-- `AiCoinCCI`. -/
abbrev AiCCI (period : Int) : Strat F := { recInd (AiCCI.Calculation period) with sides := CCIi.sides }

/-- The record of one candle. -/
def AiCCI.out (period : Int) (x : Nat → Candle F) (i : Nat) : Rec F :=
  ⟨ti x i, aiCciF period.toNat (cl x) i⟩

theorem AiCCI.appends (period : Int) :
    Appends (AiCCI (F := F) period).toIndicator (fun _ => True) (AiCCI.out period) := by
  intro it n x hx
  refine ⟨it, rfl, fun _ data => ?_, fun h => absurd trivial h⟩
  show AiCCI.Calculation period it data = _
  simp only [AiCCI.Calculation, GetOHLC_tab hx, ohlcOf, AiCoinCCI_all, ok_bind, appendRecs_tab hx]
  rfl

/-- Models trend/Cci.go:70-84 `Calculation`. -/
def CCIi.Calculation (period smaPeriod : Int) (e : Item F) (data : List (Rec F)) : Go (List (Rec F)) := do
  let hlc3 ← HLC3 e
  let ccis ← Ta.CCI hlc3 period smaPeriod
  appendRecs e ccis data

/-- `Cci`. -/
abbrev CCIi (period smaPeriod : Int) : Strat F :=
  { recInd (CCIi.Calculation period smaPeriod) with sides := CCIi.sides }

/-- Typical price. -/
def typF (x : Nat → Candle F) (i : Nat) : F := (hi x i +. lo x i +. cl x i) /. fl 3

/-- The record of one candle. -/
def CCIi.out (period smaPeriod : Int) (x : Nat → Candle F) (i : Nat) : Rec F :=
  ⟨ti x i, cciF period.toNat smaPeriod.toNat (typF x) i⟩

theorem CCIi.appends (period smaPeriod : Int) :
    Appends (CCIi (F := F) period smaPeriod).toIndicator (okCci period smaPeriod)
      (CCIi.out period smaPeriod) := by
  intro it n x hx
  refine ⟨it, rfl, fun h data => ?_, fun h data => ?_⟩
  · show CCIi.Calculation period smaPeriod it data = _
    simp only [CCIi.Calculation, HLC3_tab hx, CCI_ok _ h, ok_bind, appendRecs_tab hx]
    rfl
  · show ∃ p, CCIi.Calculation period smaPeriod it data = _
    simp only [CCIi.Calculation, HLC3_tab hx, ok_bind]
    exact err_bind (CCI_err _ h)

/-! ## Atr -/

/-- Models trend/Atr.go `AtrData`. -/
structure ATR.Data (F : Type) where
  time : Int
  tr : F
  atr : F
  deriving DecidableEq, Repr

/-- Models trend/Atr.go:42-74 `Calculation`. -/
def ATR.Calculation (period : Int) (e : Item F) (_ : List (ATR.Data F)) : Go (List (ATR.Data F)) := do
  let ohlc ← GetOHLC e
  let tr ← makeLoop e.candles.length e.candles.length (fl 0) fun i => do
    let prevClose ← (if i ≠ 0 then idx ohlc.close (i - 1) else pure (fl 0))
    let h ← idx ohlc.high i
    let l ← idx ohlc.low i
    pure (max (h -. l) (max (h -. prevClose) (l -. prevClose)))
  let atr ← Ta.Rma period tr
  makeLoop e.candles.length atr.length ⟨zeroUnix, fl 0, fl 0⟩ fun i => do
    let v ← idx atr i
    let t ← candleTime e i
    let r ← idx tr i
    pure ⟨t, r, v⟩

/-- `Atr`. -/
abbrev ATR (period : Int) : Indicator F :=
  { S := Item F, D := ATR.Data F, source := pure, compute := ATR.Calculation period }

/-- The true range as `Atr` computes it. -/
def trI (x : Nat → Candle F) (i : Nat) : F :=
  max (hi x i -. lo x i) (max (hi x i -. (if i = 0 then fl 0 else cl x (i - 1)))
    (lo x i -. (if i = 0 then fl 0 else cl x (i - 1))))

/-- The record of one candle. -/
def ATR.out (period : Int) (x : Nat → Candle F) (i : Nat) : ATR.Data F := ⟨ti x i, trI x i, rmaF period (trI x) i⟩

theorem ATR.makes (period : Int) : Makes (ATR (F := F) period) (fun _ => True) (ATR.out period) := by
  intro it n x hx
  have hl : it.candles.length = n := by rw [hx, tab_length]
  refine ⟨it, rfl, fun _ data => ?_, fun h => absurd trivial h⟩
  show ATR.Calculation period it data = _
  simp only [ATR.Calculation, GetOHLC_tab hx, ohlcOf, ok_bind, hl]
  rw [makeLoop_tab (trI x)]
  · simp only [ok_bind, Rma_tab, tab_length]
    exact makeLoop_tab _ fun k hk => by simp only [candleTime_tab hx hk, idx_tab hk, ok_bind]; rfl
  · intro k hk
    simp only [idx_tab hk, ok_bind]
    cases k with
    | zero => rfl
    | succ k =>
      have e : ((k + 1 : Nat) : Int) - 1 = (k : Int) := by omega
      rw [if_pos (by omega), e, idx_tab (by omega)]
      rfl

/-- Models trend/Atr.go:104-113 `GetValues` of a new object. -/
def ATR.GetValues (period : Int) (it : Item F) : Go (List F × List F) :=
  (ATR period).get (fun _ d => do
    let tr ← valuesAppend ATR.Data.tr d
    let atr ← valuesAppend ATR.Data.atr d
    pure (tr, atr)) it

theorem ATR.GetValues_tab {period : Int} {it : Item F} {n : Nat} {x : Nat → Candle F}
    (hx : it.candles = tab n x) :
    ATR.GetValues period it = .ok (tab n (trI x), tab n (rmaF period (trI x))) := by
  refine (Indicator.get_of_data (I := ATR period) rfl (((ATR.makes period).yields it n x hx).1 trivial)).trans ?_
  simp only [valuesAppend_tab, ok_bind]
  rfl

/-- Models trend/Atr.go:82-101 `ChandelierExit` after `ensure`. -/
def ATR.ChandelierExit (period : Int) (e : Item F) (data : List (ATR.Data F)) : Go (List F × List F) := do
  let ohlc ← GetOHLC e
  let highestHigh22 ← Ta.Max period ohlc.high
  let lowestLow22 ← Ta.Min period ohlc.low
  let long ← makeLoop data.length data.length (fl 0) fun i => do
    let h ← idx highestHigh22 i
    let d ← idx data i
    pure (h -. (d.atr *. fl 3))
  let short ← makeLoop data.length data.length (fl 0) fun i => do
    let l ← idx lowestLow22 i
    let d ← idx data i
    pure (l +. (d.atr *. fl 3))
  pure (long, short)

/-! ## Rsi -/

/-- One gain/loss update: `if d < 0 { prevLoss -= d } else { prevGain += d }`. -/
def rsiStep (gl : F × F) (d : F) : F × F := if d <. fl 0 then (gl.1, gl.2 -. d) else (gl.1 +. d, gl.2)

/-- The value stored for average gain and loss (trend/Rsi.go:143-148 and 184-189). -/
def rsiVal (gl : F × F) : F :=
  let t := gl.1 +. gl.2
  if !(lit (-1 / 100000000000000) <. t && t <. lit (1 / 100000000000000)) then fl 100 *. (gl.1 /. t) else fl 0

/-- Models trend/Rsi.go:103-194 `rsi`. `today` is the loop counter of both loops. The branch for
`today <= 0` (lines 152-170) is dead: `today` is `inTimePeriod + 1` there. -/
def RSI.rsi (inReal : List F) (p : Int) : Go (List F) := do
  let outReal ← mk inReal.length (fl 0)
  if (inReal.length : Int) < p then pure outReal
  else if p < 2 then pure outReal
  else
    let prevValue ← idx inReal 0
    let (prevValue, gl) ← goFor 1 (p + 1) (prevValue, ((fl 0 : F), (fl 0 : F))) fun today (prevValue, gl) => do
      let tempValue1 ← idx inReal today
      let tempValue2 := tempValue1 -. prevValue
      pure (tempValue1, rsiStep gl tempValue2)
    let gl := (gl.1 /. fl p, gl.2 /. fl p)
    let outIdx := p
    let outReal ← setAt outReal outIdx (rsiVal gl)
    let outIdx := outIdx + 1
    let (_, outReal) ← goFor (p + 1) inReal.length ((prevValue, gl, outIdx), outReal)
      fun today ((prevValue, gl, outIdx), outReal) => do
        let tempValue1 ← idx inReal today
        let tempValue2 := tempValue1 -. prevValue
        let gl := (gl.1 *. fl (p - 1), gl.2 *. fl (p - 1))
        let gl := rsiStep gl tempValue2
        let gl := (gl.1 /. fl p, gl.2 /. fl p)
        let outReal ← setAt outReal outIdx (rsiVal gl)
        pure ((tempValue1, gl, outIdx + 1), outReal)
    pure outReal

/-- Gain and loss sums of the first `k` changes. -/
def rsiInit (x : Nat → F) : Nat → F × F
  | 0 => (fl 0, fl 0)
  | k + 1 => rsiStep (rsiInit x k) (x (k + 1) -. x k)

/-- Average gain and loss at index `p + m`. -/
def rsiW (p : Nat) (x : Nat → F) : Nat → F × F
  | 0 => ((rsiInit x p).1 /. fl p, (rsiInit x p).2 /. fl p)
  | m + 1 =>
    let g := rsiStep ((rsiW p x m).1 *. fl ((p : Int) - 1), (rsiW p x m).2 *. fl ((p : Int) - 1))
      (x (p + m + 1) -. x (p + m))
    (g.1 /. fl p, g.2 /. fl p)

/-- The index at one candle. -/
def rsiF (p : Nat) (x : Nat → F) (i : Nat) : F := if p < 2 ∨ i < p then fl 0 else rsiVal (rsiW p x (i - p))

/-- Where `Rsi` does not panic. -/
def okRsi (p : Int) (n : Nat) : Prop := p < 2 ∨ p ≠ n

theorem RSI.rsi_ok {p : Int} {n : Nat} (x : Nat → F) (h : okRsi p n) :
    RSI.rsi (tab n x) p = .ok (tab n (rsiF p.toNat x)) := by
  simp only [RSI.rsi, tab_length, mk_nat, ok_bind]
  by_cases h1 : (n : Int) < p
  · rw [if_pos h1, replicate_eq_tab]
    exact congrArg Except.ok (tab_ext fun i hi => by rw [rsiF, if_pos (by omega)])
  · rw [if_neg h1]
    by_cases h2 : p < 2
    · rw [if_pos h2, replicate_eq_tab]
      exact congrArg Except.ok (tab_ext fun i hi => by rw [rsiF, if_pos (by omega)])
    · rw [if_neg h2]
      obtain ⟨q, rfl⟩ : ∃ q : Nat, p = q := ⟨p.toNat, by omega⟩
      have hq : q < n := by unfold okRsi at h; omega
      have e0 : idx (tab n x) 0 = .ok (x 0) := idx_tab (i := 0) (by omega)
      simp only [e0, ok_bind, Int.toNat_natCast]
      have e1 : (q : Int) + 1 = ((q + 1 : Nat) : Int) := by omega
      rw [show (1 : Int) = ((1 : Nat) : Int) from rfl] at e1 ⊢
      rw [e1, goFor_acc (lo := 1) (by omega) (fun k => (x (k - 1), rsiInit x (k - 1))) (by simp [rsiInit])]
      · simp only [ok_bind, Nat.add_sub_cancel]
        have hst : List.replicate n (fl 0 : F) = filled n q (rsiF q x) (fl 0) := by
          rw [replicate_eq_tab]
          exact tab_ext fun i _ => by by_cases hi : i < q <;> simp [hi, rsiF]
        rw [hst, setAt_filled hq (by rw [rsiF, if_neg (by omega), Nat.sub_self]; rfl), ok_bind]
        rw [goFor_fill_cont (lo := q + 1) (rsiF q x)
          (fun k => (x (k - 1), rsiW q x (k - 1 - q), (k : Int)))]
        · rfl
        · simp only [Nat.add_sub_cancel, Nat.sub_self]; rfl
        · omega
        · intro k hk hk'
          obtain ⟨m, rfl⟩ : ∃ m, k = q + m + 1 := ⟨k - q - 1, by omega⟩
          have e2 : q + m + 1 - q = m + 1 := by omega
          have e4 : q + m - q = m := by omega
          simp only [idx_tab hk', ok_bind, Nat.add_sub_cancel, e2, e4]
          rw [setAt_filled hk']
          · rfl
          · rw [rsiF, if_neg (by omega), e2]; rfl
      · intro k hk hk'
        obtain ⟨m, rfl⟩ : ∃ m, k = m + 1 := ⟨k - 1, by omega⟩
        simp only [idx_tab (show m + 1 < n by omega), ok_bind, Nat.add_sub_cancel]
        rfl

theorem RSI.rsi_err {p : Int} {n : Nat} (x : Nat → F) (h : ¬ okRsi p n) :
    ∃ e, RSI.rsi (tab n x) p = .error e := by
  simp only [okRsi, not_or, not_lt, not_not] at h
  obtain ⟨h2, rfl⟩ := h
  refine ⟨.index, ?_⟩
  simp only [RSI.rsi, tab_length, mk_nat, ok_bind]
  rw [if_neg (by omega), if_neg (by omega)]
  have e0 : idx (tab n x) 0 = .ok (x 0) := idx_tab (i := 0) (by omega)
  simp only [e0, ok_bind]
  have e1 : (n : Int) + 1 = ((n + 1 : Nat) : Int) := by omega
  rw [show (1 : Int) = ((1 : Nat) : Int) from rfl] at e1 ⊢
  rw [e1, goFor_error_at (lo := 1) (hi := n + 1) (m := n) (e := .index) (by omega) (by omega)]
  · rfl
  · intro k s hk hk'
    exact ⟨_, by rw [idx_tab hk', ok_bind]; rfl⟩
  · intro s; rw [idx_tab_ge (le_refl (n : Int))]; rfl

/-- Models trend/Rsi.go:40-52 `Calculation`. -/
def RSI.Calculation (period : Int) (e : Item F) (data : List (Rec F)) : Go (List (Rec F)) := do
  let ohlc ← GetOHLC e
  let rsiArray ← RSI.rsi ohlc.close period
  appendRecs e rsiArray data

/-- Models trend/Rsi.go:55-80 `AnalysisSide`. -/
def RSI.sides (e : Item F) (data : List (Rec F)) : Go (List Side) :=
  sideLoop e.candles.length 1 data fun _ prev v =>
    pure (if v.value <. fl 20 && prev.value >. fl 20 then Buy
      else if v.value <. fl 80 && prev.value >. fl 80 then Sell else Hold)

/-- `Rsi`. -/
abbrev RSI (period : Int) : Strat F := { recInd (RSI.Calculation period) with sides := RSI.sides }

/-- The record of one candle. -/
def RSI.out (period : Int) (x : Nat → Candle F) (i : Nat) : Rec F := ⟨ti x i, rsiF period.toNat (cl x) i⟩

theorem RSI.appends (period : Int) :
    Appends (RSI (F := F) period).toIndicator (okRsi period) (RSI.out period) := by
  intro it n x hx
  refine ⟨it, rfl, fun h data => ?_, fun h data => ?_⟩
  · show RSI.Calculation period it data = _
    simp only [RSI.Calculation, GetOHLC_tab hx, ohlcOf, RSI.rsi_ok _ h, ok_bind, appendRecs_tab hx]
    rfl
  · show ∃ p, RSI.Calculation period it data = _
    simp only [RSI.Calculation, GetOHLC_tab hx, ohlcOf, ok_bind]
    exact err_bind (RSI.rsi_err _ h)

/-- Models trend/Rsi.go:91-101 `GetValue` of a new object. -/
def RSI.GetValue (period : Int) (it : Item F) : Go (List F) :=
  (RSI period).toIndicator.get (fun _ d => valuesAppend Rec.value d) it

theorem RSI.GetValue_ok {period : Int} {it : Item F} {n : Nat} {x : Nat → Candle F}
    (hx : it.candles = tab n x) (h : okRsi period n) :
    RSI.GetValue period it = .ok (tab n (rsiF period.toNat (cl x))) :=
  (Indicator.get_of_data (I := (RSI period).toIndicator) rfl
    (((RSI.appends period).yields it n x hx).1 h)).trans (valuesAppend_tab ..)

theorem RSI.GetValue_err {period : Int} {it : Item F} {n : Nat} {x : Nat → Candle F}
    (hx : it.candles = tab n x) (h : ¬ okRsi period n) : ∃ p, RSI.GetValue period it = .error p := by
  obtain ⟨p, hp⟩ := ((RSI.appends period).yields it n x hx).2 h
  exact ⟨p, Indicator.get_of_error hp⟩

/-! ## StochRsi -/

/-- Models trend/StochRsi.go:49-67 `Calculation`. -/
def StochRSI.Calculation (smoothK smoothD rsiLen stochLen : Int) (e : Item F) (data : List (KD F)) :
    Go (List (KD F)) := do
  let rsi ← RSI.GetValue rsiLen e
  let highestHigh ← Ta.Max stochLen rsi
  let lowestLow ← Ta.Min stochLen rsi
  let a ← Subtract rsi lowestLow
  let b ← Subtract highestHigh lowestLow
  let q ← Divide a b
  let m ← MultiplyBy q (fl 100)
  let k ← Ta.Ema smoothK m
  let d ← Ta.Ema smoothD k
  appendLoop k.length data fun i => do
    let t ← candleTime e i
    let kk ← idx k i
    let dd ← idx d i
    pure ⟨t, kk, dd⟩

/-- `StochRsi`; its `AnalysisSide` (trend/StochRsi.go:70-96) is `KD.sides`. -/
abbrev StochRSI (smoothK smoothD rsiLen stochLen : Int) : Strat F :=
  { S := Item F, D := KD F, source := pure, compute := StochRSI.Calculation smoothK smoothD rsiLen stochLen,
    sides := KD.sides }

/-- The unsmoothed stochastic of the RSI. -/
def stochRsiF (rsiLen stochLen : Int) (x : Nat → Candle F) : Nat → F :=
  stochF stochLen.toNat (rsiF rsiLen.toNat (cl x)) (rsiF rsiLen.toNat (cl x)) (rsiF rsiLen.toNat (cl x))

/-- The record of one candle. -/
def StochRSI.out (smoothK smoothD rsiLen stochLen : Int) (x : Nat → Candle F) (i : Nat) : KD F :=
  ⟨ti x i, emaF smoothK (stochRsiF rsiLen stochLen x) i, emaF smoothD (emaF smoothK (stochRsiF rsiLen stochLen x)) i⟩

theorem StochRSI.appends (smoothK smoothD rsiLen stochLen : Int) :
    Appends (StochRSI (F := F) smoothK smoothD rsiLen stochLen).toIndicator
      (fun n => okRsi rsiLen n ∧ okW stochLen n) (StochRSI.out smoothK smoothD rsiLen stochLen) := by
  intro it n x hx
  refine ⟨it, rfl, fun ⟨h1, h2⟩ data => ?_, fun h data => ?_⟩
  · show StochRSI.Calculation smoothK smoothD rsiLen stochLen it data = _
    simp only [StochRSI.Calculation, RSI.GetValue_ok hx h1, Max_ok _ h2, Min_ok _ h2, Subtract_tab, Divide_tab,
      MultiplyBy_tab, Ema_tab, Nat.le_refl, if_true, ok_bind, tab_length]
    exact appendLoop_tab _ fun k hk => by simp only [candleTime_tab hx hk, idx_tab hk, ok_bind]; rfl
  · show ∃ p, StochRSI.Calculation smoothK smoothD rsiLen stochLen it data = _
    by_cases h1 : okRsi rsiLen n
    · simp only [StochRSI.Calculation, RSI.GetValue_ok hx h1, ok_bind]
      exact err_bind (Max_err _ fun h2 => h ⟨h1, h2⟩)
    · exact err_bind (RSI.GetValue_err hx h1)

/-! ## EMAVegas -/

/-- Models trend/EMAVegas.go `EMAVegasData`. -/
structure Vegas.Data (F : Type) where
  time : Int
  value : F
  short1 : F
  short2 : F
  long1 : F
  long2 : F
  deriving DecidableEq, Repr

/-- Models trend/EMAVegas.go:68-97 `Calculation`. The `clear` calls at the end only touch the local
columns. -/
def Vegas.Calculation (p s1 s2 l1 l2 : Int) (o : OHLC F) (_ : List (Vegas.Data F)) :
    Go (List (Vegas.Data F)) := do
  let ema ← Ta.Ema p o.close
  let emaShort1 ← Ta.Ema s1 o.close
  let emaShort2 ← Ta.Ema s2 o.close
  let emaLong1 ← Ta.Ema l1 o.close
  let emaLong2 ← Ta.Ema l2 o.close
  makeLoop o.close.length emaShort1.length ⟨zeroUnix, fl 0, fl 0, fl 0, fl 0, fl 0⟩ fun i => do
    let t ← idx o.timeUnix i
    let v ← idx ema i
    let a ← idx emaShort1 i
    let b ← idx emaShort2 i
    let c ← idx emaLong1 i
    let d ← idx emaLong2 i
    pure ⟨t, v, a, b, c, d⟩

/-- The rule of trend/EMAVegas.go:134-145, from the current record, the candle colour and the two flags. -/
def Vegas.rule (v : Vegas.Data F) (bull t1 d1 : Bool) : Side :=
  if v.value >. v.short1 && v.short1 >. v.long1 && v.short1 >. v.long2 && v.short2 >. v.long1 &&
      v.short2 >. v.long2 && bull && t1 then Buy
  else if v.value <. v.short1 && v.short1 <. v.long1 && v.short1 <. v.long2 && v.short2 <. v.long1 &&
      v.short2 <. v.long2 && !bull && d1 then Sell
  else Hold

/-- Models trend/EMAVegas.go:100-151 `AnalysisSide`. -/
def Vegas.sides (o : OHLC F) (data : List (Vegas.Data F)) : Go (List Side) := do
  let sides ← mk o.bullMarket.length Buy
  goFor 0 data.length sides fun i sides => do
    if i < 1 then pure sides
    else
      let item ← idx data i
      if i - 10 - 1 < 0 then pure sides
      else
        let (t1, d1) ← goFor (i - 10) i (false, false) fun k (t1, d1) => do
          let d ← idx data k
          let dp ← idx data (k - 1)
          pure (if d.short2 >. d.long2 && dp.short2 <. dp.long2 then true else t1,
            if d.short2 <. d.long2 && dp.short2 >. dp.long2 then true else d1)
        let bull ← idx o.bullMarket i
        setAt sides i (Vegas.rule item bull t1 d1)

/-- `EMAVegas`. -/
abbrev Vegas (p s1 s2 l1 l2 : Int) : Strat F :=
  { S := OHLC F, D := Vegas.Data F, source := GetOHLC, compute := Vegas.Calculation p s1 s2 l1 l2,
    sides := Vegas.sides }

/-- The record of one candle. -/
def Vegas.out (p s1 s2 l1 l2 : Int) (x : Nat → Candle F) (i : Nat) : Vegas.Data F :=
  ⟨ti x i, emaF p (cl x) i, emaF s1 (cl x) i, emaF s2 (cl x) i, emaF l1 (cl x) i, emaF l2 (cl x) i⟩

theorem Vegas.makes (p s1 s2 l1 l2 : Int) :
    Makes (Vegas (F := F) p s1 s2 l1 l2).toIndicator (fun _ => True) (Vegas.out p s1 s2 l1 l2) := by
  intro it n x hx
  refine ⟨_, GetOHLC_tab hx, fun _ data => ?_, fun h => absurd trivial h⟩
  show Vegas.Calculation p s1 s2 l1 l2 _ data = _
  simp only [Vegas.Calculation, ohlcOf, Ema_tab, ok_bind, tab_length]
  exact makeLoop_tab _ fun k hk => by simp only [idx_tab hk, ok_bind]; rfl

/-! ## AverageDirectionalIndex -/

/-- Models trend/AverageDirectionalIndex.go `AverageDirectionalIndexData`. -/
structure ADX.Data (F : Type) where
  time : Int
  plus : F
  minus : F
  adx : F
  deriving DecidableEq, Repr

/-- Models trend/AverageDirectionalIndex.go:64-66 `calculateTR`. -/
def ADX.calculateTR (h l pc : F) : F := max (h -. l) (max (abs (h -. pc)) (abs (l -. pc)))

/-- Models trend/AverageDirectionalIndex.go:71-82 `calculateDM`. -/
def ADX.calculateDM (h ph l pl : F) : F × F :=
  let upMove := h -. ph
  let downMove := pl -. l
  (if upMove >. downMove && upMove >. fl 0 then upMove else fl 0,
   if downMove >. upMove && downMove >. fl 0 then downMove else fl 0)

/-- Models trend/AverageDirectionalIndex.go:86-92 `smoothValues`. -/
def ADX.smoothValues (values : List F) (period : Int) : Go (List F) := do
  let smoothed ← mk values.length (fl 0)
  goFor 1 values.length smoothed fun i s => do
    let a ← idx s (i - 1)
    let v ← idx values i
    setAt s i (a -. a /. fl period +. v)

/-- Models trend/AverageDirectionalIndex.go:95-141 `Calculation`. -/
def ADX.Calculation (period len : Int) (o : OHLC F) (_ : List (ADX.Data F)) : Go (List (ADX.Data F)) := do
  let tr ← mk o.close.length (fl 0 : F)
  let plusDM ← mk o.close.length (fl 0 : F)
  let minusDM ← mk o.close.length (fl 0 : F)
  let (tr, plusDM, minusDM) ← goFor 1 o.close.length (tr, plusDM, minusDM) fun i (tr, plusDM, minusDM) => do
    let h ← idx o.high i
    let l ← idx o.low i
    let pc ← idx o.close (i - 1)
    let tr ← setAt tr i (ADX.calculateTR h l pc)
    let ph ← idx o.high (i - 1)
    let pl ← idx o.low (i - 1)
    let dm := ADX.calculateDM h ph l pl
    let plusDM ← setAt plusDM i dm.1
    let minusDM ← setAt minusDM i dm.2
    pure (tr, plusDM, minusDM)
  let smoothedTR ← ADX.smoothValues tr len
  let smoothedPlusDM ← ADX.smoothValues plusDM len
  let smoothedMinusDM ← ADX.smoothValues minusDM len
  let plusDI ← mk o.close.length (fl 0 : F)
  let minusDI ← mk o.close.length (fl 0 : F)
  let dx ← mk o.close.length (fl 0 : F)
  let (plusDI, minusDI, dx) ← goFor (period - 1) o.close.length (plusDI, minusDI, dx)
    fun i (plusDI, minusDI, dx) => do
      let sp ← idx smoothedPlusDM i
      let st ← idx smoothedTR i
      let plusDI ← setAt plusDI i ((sp /. st) *. fl 100)
      let sm ← idx smoothedMinusDM i
      let minusDI ← setAt minusDI i ((sm /. st) *. fl 100)
      let a ← idx plusDI i
      let b ← idx minusDI i
      let dx ← setAt dx i (fl 100 *. (abs (a -. b) /. (a +. b)))
      pure (plusDI, minusDI, dx)
  let smoothedDX ← Ta.Sma len dx
  makeLoop o.close.length o.close.length ⟨zeroUnix, fl 0, fl 0, fl 0⟩ fun i => do
    let t ← idx o.timeUnix i
    let a ← idx plusDI i
    let b ← idx minusDI i
    let c ← idx smoothedDX i
    pure ⟨t, a, b, c⟩

/-- `AverageDirectionalIndex`. -/
abbrev ADX (period len : Int) : Indicator F :=
  { S := OHLC F, D := ADX.Data F, source := GetOHLC, compute := ADX.Calculation period len }

/-- True range column. -/
def adxTR (x : Nat → Candle F) : Nat → F
  | 0 => fl 0
  | k + 1 => ADX.calculateTR (hi x (k + 1)) (lo x (k + 1)) (cl x k)
/-- Directional movement columns. -/
def adxDM (x : Nat → Candle F) : Nat → F × F
  | 0 => (fl 0, fl 0)
  | k + 1 => ADX.calculateDM (hi x (k + 1)) (hi x k) (lo x (k + 1)) (lo x k)
/-- `smoothValues` at one position. -/
def smoothF (len : Int) (v : Nat → F) : Nat → F
  | 0 => fl 0
  | k + 1 => smoothF len v k -. smoothF len v k /. fl len +. v (k + 1)
/-- `+DI` at one candle. -/
def adxPlus (period len : Int) (x : Nat → Candle F) (i : Nat) : F :=
  if (i : Int) + 1 < period then fl 0
  else (smoothF len (fun j => (adxDM x j).1) i /. smoothF len (adxTR x) i) *. fl 100
/-- `-DI` at one candle. -/
def adxMinus (period len : Int) (x : Nat → Candle F) (i : Nat) : F :=
  if (i : Int) + 1 < period then fl 0
  else (smoothF len (fun j => (adxDM x j).2) i /. smoothF len (adxTR x) i) *. fl 100
/-- `DX` at one candle. -/
def adxDX (period len : Int) (x : Nat → Candle F) (i : Nat) : F :=
  if (i : Int) + 1 < period then fl 0
  else fl 100 *. (abs (adxPlus period len x i -. adxMinus period len x i)
    /. (adxPlus period len x i +. adxMinus period len x i))

/-- The record of one candle. -/
def ADX.out (period len : Int) (x : Nat → Candle F) (i : Nat) : ADX.Data F :=
  ⟨ti x i, adxPlus period len x i, adxMinus period len x i, smaF len.toNat (adxDX period len x) i⟩

theorem ADX.smoothValues_tab (n : Nat) (v : Nat → F) (len : Int) :
    ADX.smoothValues (tab n v) len = .ok (tab n (smoothF len v)) := by
  simp only [ADX.smoothValues, tab_length, mk_nat, ok_bind]
  rw [show (1 : Int) = ((1 : Nat) : Int) from rfl]
  refine goFor_fill_from₀ _ (fun j hj => by obtain rfl : j = 0 := by omega
                                            rfl) fun k hk hk' => ?_
  obtain ⟨m, rfl⟩ : ∃ m, k = m + 1 := ⟨k - 1, by omega⟩
  have e : ((m + 1 : Nat) : Int) - ((1 : Nat) : Int) = (m : Int) := by omega
  rw [e, idx_filled (by omega) (by omega), ok_bind, idx_tab hk', ok_bind, setAt_filled hk']; rfl

/-- The first loop of `ADX.Calculation`. -/
theorem ADX.loop1 (n : Nat) (x : Nat → Candle F) :
    (goFor 1 (n : Int) (List.replicate n (fl 0 : F), List.replicate n (fl 0 : F), List.replicate n (fl 0 : F))
      fun i (tr, plusDM, minusDM) => do
        let h ← idx (tab n (hi x)) i
        let l ← idx (tab n (lo x)) i
        let pc ← idx (tab n (cl x)) (i - 1)
        let tr ← setAt tr i (ADX.calculateTR h l pc)
        let ph ← idx (tab n (hi x)) (i - 1)
        let pl ← idx (tab n (lo x)) (i - 1)
        let dm := ADX.calculateDM h ph l pl
        let plusDM ← setAt plusDM i dm.1
        let minusDM ← setAt minusDM i dm.2
        pure (tr, plusDM, minusDM))
      = .ok (tab n (adxTR x), tab n (fun j => (adxDM x j).1), tab n (fun j => (adxDM x j).2)) := by
  have h0 : ∀ f : Nat → F, f 0 = fl 0 → List.replicate n (fl 0 : F) = filled n 1 f (fl 0) := by
    intro f hf
    rw [replicate_eq_tab]
    exact tab_ext fun i _ => by
      by_cases hi : i = 0
      · subst hi; simp [hf]
      · simp [hi]
  rcases Nat.eq_zero_or_pos n with rfl | hn
  · rw [goFor_empty (by omega)]; rfl
  · rw [show (1 : Int) = ((1 : Nat) : Int) from rfl]
    rw [goFor_acc (lo := 1) (by omega) (fun k => (filled n k (adxTR x) (fl 0),
      filled n k (fun j => (adxDM x j).1) (fl 0), filled n k (fun j => (adxDM x j).2) (fl 0)))]
    · simp only [filled_full]
    · rw [← h0 _ rfl, ← h0 _ rfl, ← h0 _ rfl]
    · intro k hk hk'
      obtain ⟨m, rfl⟩ : ∃ m, k = m + 1 := ⟨k - 1, by omega⟩
      have e : ((m + 1 : Nat) : Int) - ((1 : Nat) : Int) = (m : Int) := by omega
      simp only [e, idx_tab hk', idx_tab (show m < n by omega), ok_bind]
      rw [setAt_filled hk', ok_bind, setAt_filled hk', ok_bind, setAt_filled hk']
      all_goals rfl

theorem ADX.loop2 {period : Int} (hp : 0 < period) (len : Int) (n : Nat) (x : Nat → Candle F) :
    (goFor (period - 1) (n : Int)
      (List.replicate n (fl 0 : F), List.replicate n (fl 0 : F), List.replicate n (fl 0 : F))
      fun i (plusDI, minusDI, dx) => do
        let sp ← idx (tab n (smoothF len fun j => (adxDM x j).1)) i
        let st ← idx (tab n (smoothF len (adxTR x))) i
        let plusDI ← setAt plusDI i ((sp /. st) *. fl 100)
        let sm ← idx (tab n (smoothF len fun j => (adxDM x j).2)) i
        let minusDI ← setAt minusDI i ((sm /. st) *. fl 100)
        let a ← idx plusDI i
        let b ← idx minusDI i
        let dx ← setAt dx i (fl 100 *. (abs (a -. b) /. (a +. b)))
        pure (plusDI, minusDI, dx))
      = .ok (tab n (adxPlus period len x), tab n (adxMinus period len x), tab n (adxDX period len x)) := by
  obtain ⟨q, rfl⟩ : ∃ q : Nat, period = q + 1 := ⟨(period - 1).toNat, by omega⟩
  have h0 : ∀ f : Nat → F, (∀ j, j < q → f j = fl 0) → List.replicate n (fl 0 : F) = filled n q f (fl 0) := by
    intro f hf
    rw [replicate_eq_tab]
    exact tab_ext fun i _ => by by_cases hi : i < q <;> simp [hi, hf]
  have e : ((q : Int) + 1) - 1 = (q : Int) := by omega
  have z1 : ∀ j, j < q → adxPlus (q + 1) len x j = fl 0 := fun j hj => by rw [adxPlus, if_pos (by omega)]
  have z2 : ∀ j, j < q → adxMinus (q + 1) len x j = fl 0 := fun j hj => by rw [adxMinus, if_pos (by omega)]
  have z3 : ∀ j, j < q → adxDX (q + 1) len x j = fl 0 := fun j hj => by rw [adxDX, if_pos (by omega)]
  rw [e]
  by_cases hn : n ≤ q
  · rw [goFor_empty (by omega), h0 _ z1]
    congr 2
    · exact (h0 _ z1).symm.trans ((replicate_eq_tab ..).trans (tab_ext fun i hi => (z1 i (by omega)).symm))
    · congr 1
      · exact (h0 _ z1).symm.trans ((replicate_eq_tab ..).trans (tab_ext fun i hi => (z2 i (by omega)).symm))
      · exact (h0 _ z1).symm.trans ((replicate_eq_tab ..).trans (tab_ext fun i hi => (z3 i (by omega)).symm))
  · rw [goFor_acc (lo := q) (by omega) (fun k => (filled n k (adxPlus (q + 1) len x) (fl 0),
      filled n k (adxMinus (q + 1) len x) (fl 0), filled n k (adxDX (q + 1) len x) (fl 0)))]
    · simp only [filled_full]
    · rw [← h0 _ z1, ← h0 _ z2, ← h0 _ z3]
    · intro k hk hk'
      simp only [idx_tab hk', ok_bind]
      rw [setAt_filled (f := adxPlus (q + 1) len x) hk' (by rw [adxPlus, if_neg (by omega)])]
      simp only [ok_bind]
      rw [setAt_filled (f := adxMinus (q + 1) len x) hk' (by rw [adxMinus, if_neg (by omega)])]
      simp only [ok_bind, idx_filled (show k < k + 1 by omega) hk']
      rw [setAt_filled (f := adxDX (q + 1) len x) hk' (by rw [adxDX, if_neg (by omega)])]
      rfl

theorem ADX.makes (period len : Int) :
    Makes (ADX (F := F) period len) (fun n => 0 < period ∧ okS len n) (ADX.out period len) := by
  intro it n x hx
  refine ⟨_, GetOHLC_tab hx, fun ⟨h1, h2⟩ data => ?_, fun h data => ?_⟩
  · show ADX.Calculation period len _ data = _
    simp only [ADX.Calculation, ohlcOf, tab_length, mk_nat, ok_bind, ADX.loop1, ADX.smoothValues_tab,
      ADX.loop2 h1, Sma_ok _ h2]
    exact makeLoop_tab _ fun k hk => by simp only [idx_tab hk, ok_bind]; rfl
  · show ∃ p, ADX.Calculation period len _ data = _
    simp only [ADX.Calculation, ohlcOf, tab_length, mk_nat, ok_bind, ADX.loop1, ADX.smoothValues_tab]
    by_cases h1 : 0 < period
    · simp only [ADX.loop2 h1, ok_bind]
      exact err_bind (Sma_err _ fun h2 => h ⟨h1, h2⟩)
    · refine err_bind ⟨.index, goFor_error_first (by omega) ?_⟩
      rw [idx_neg (by omega)]; rfl

/-! ## LinearRegressionCandles -/

/-- Models trend/LinearRegressionCandles.go `LinearRegressionCandlesData`. -/
structure LRC.Data (F : Type) where
  time : Int
  op : F
  cl : F
  hi : F
  lo : F
  signal : F
  deriving DecidableEq, Repr

/-- Models trend/LinearRegressionCandles.go:59-99 `Calculation`. -/
def LRC.Calculation (smoothing len : Int) (smaSignal : Bool) (o : OHLC F) (_ : List (LRC.Data F)) :
    Go (List (LRC.Data F)) := do
  let bopen ← LinearReg o.open_ len
  let bhigh ← LinearReg o.high len
  let blow ← LinearReg o.low len
  let bclose ← LinearReg o.close len
  let signal ← (if smaSignal then Ta.Sma smoothing bclose else Ta.Ema smoothing bclose)
  makeLoop o.close.length o.close.length ⟨zeroUnix, fl 0, fl 0, fl 0, fl 0, fl 0⟩ fun i => do
    let a ← idx bopen i
    let b ← idx bclose i
    let c ← idx bhigh i
    let d ← idx blow i
    let s ← idx signal i
    let t ← idx o.timeUnix i
    pure ⟨t, a, b, c, d, s⟩

/-- `LinearRegressionCandles`. -/
abbrev LRC (smoothing len : Int) (smaSignal : Bool) : Indicator F :=
  { S := OHLC F, D := LRC.Data F, source := GetOHLC, compute := LRC.Calculation smoothing len smaSignal }

/-- The record of one candle. -/
def LRC.out (smoothing len : Int) (smaSignal : Bool) (x : Nat → Candle F) (i : Nat) : LRC.Data F :=
  ⟨ti x i, lrF lrEnd len.toNat (Ind.op x) i, lrF lrEnd len.toNat (Ind.cl x) i,
    lrF lrEnd len.toNat (Ind.hi x) i, lrF lrEnd len.toNat (Ind.lo x) i,
    if smaSignal then smaF smoothing.toNat (lrF lrEnd len.toNat (Ind.cl x)) i
    else emaF smoothing (lrF lrEnd len.toNat (Ind.cl x)) i⟩

theorem LRC.makes (smoothing len : Int) (smaSignal : Bool) :
    Makes (LRC (F := F) smoothing len smaSignal)
      (fun n => okLR len n ∧ (smaSignal = true → okS smoothing n)) (LRC.out smoothing len smaSignal) := by
  intro it n x hx
  refine ⟨_, GetOHLC_tab hx, fun ⟨h1, h2⟩ data => ?_, fun h data => ?_⟩
  · show LRC.Calculation smoothing len smaSignal _ data = _
    simp only [LRC.Calculation, ohlcOf, LinearReg, linRegCore_ok _ _ h1, ok_bind, tab_length]
    cases smaSignal
    · simp only [Bool.false_eq_true, if_false, Ema_tab, ok_bind]
      exact makeLoop_tab _ fun k hk => by simp only [idx_tab hk, ok_bind]; rfl
    · simp only [if_true, Sma_ok _ (h2 rfl), ok_bind]
      exact makeLoop_tab _ fun k hk => by simp only [idx_tab hk, ok_bind]; rfl
  · show ∃ p, LRC.Calculation smoothing len smaSignal _ data = _
    simp only [LRC.Calculation, ohlcOf, LinearReg]
    by_cases h1 : okLR len n
    · cases smaSignal
      · exact absurd ⟨h1, by simp⟩ h
      · simp only [linRegCore_ok _ _ h1, ok_bind, if_true]
        exact err_bind (Sma_err _ fun h2 => h ⟨h1, fun _ => h2⟩)
    · exact err_bind (linRegCore_err _ _ h1)

/-! ## TraderXO -/

/-- Models trend/TraderXO.go `TraderXOData`. -/
structure XO.Data (F : Type) where
  time : Int
  fast : F
  slow : F
  deriving DecidableEq, Repr

/-- Models trend/TraderXO.go:55-80 `Calculation`. -/
def XO.Calculation (fastP slowP : Int) (o : OHLC F) (_ : List (XO.Data F)) : Go (List (XO.Data F)) := do
  let fast ← Ta.Ema fastP o.close
  let slow ← Ta.Ema slowP o.close
  makeLoop o.close.length o.close.length ⟨zeroUnix, fl 0, fl 0⟩ fun i => do
    let t ← idx o.timeUnix i
    let f ← idx fast i
    let s ← idx slow i
    pure ⟨t, f, s⟩

/-- The state of the loop of `AnalysisSide`: the two counters and the flags of the previous candle
(`buys[i-1]`, `sells[i-1]`, both false at index 0). -/
structure XO.St where
  countBuy : Int
  countSell : Int
  buyPrev : Bool
  sellPrev : Bool
  deriving DecidableEq, Repr

/-- One iteration (`i >= 1`) of the loop of trend/TraderXO.go:122-157. -/
def XO.step (s : XO.St) (v : XO.Data F) : XO.St × Side :=
  let buy := v.fast >. v.slow
  let sell := v.fast <. v.slow
  let countBuy := if buy then s.countBuy + 1 else s.countBuy
  let countSell := if buy then 0 else s.countSell
  let countSell := if sell then countSell + 1 else countSell
  let countBuy := if sell then 0 else countBuy
  let buysignal := decide (countBuy < 2) && decide (countBuy > 0) && decide (countSell < 1) && buy && !s.buyPrev
  let sellsignal := decide (countSell > 0) && decide (countSell < 2) && decide (countBuy < 1) && sell && !s.sellPrev
  (⟨countBuy, countSell, buy, sell⟩, if buysignal then Buy else if sellsignal then Sell else Hold)

/-- Models trend/TraderXO.go:105-162 `AnalysisSide`. The slices `buys` and `sells` are read only at `i` and
`i-1`; the model keeps the last entry of each. -/
def XO.sides (_ : OHLC F) (data : List (XO.Data F)) : Go (List Side) := do
  let sides ← mk data.length Buy
  let (_, sides) ← goFor 0 data.length ((⟨0, 0, false, false⟩ : XO.St), sides) fun i (s, sides) => do
    if i < 1 then
      let sides ← setAt sides i Hold
      pure (s, sides)
    else
      let v ← idx data i
      let (s, side) := XO.step s v
      let sides ← setAt sides i side
      pure (s, sides)
  pure sides

/-- `TraderXO`. -/
abbrev XO (fastP slowP : Int) : Strat F :=
  { S := OHLC F, D := XO.Data F, source := GetOHLC, compute := XO.Calculation fastP slowP, sides := XO.sides }

/-- The record of one candle. -/
def XO.out (fastP slowP : Int) (x : Nat → Candle F) (i : Nat) : XO.Data F :=
  ⟨ti x i, emaF fastP (cl x) i, emaF slowP (cl x) i⟩

theorem XO.makes (fastP slowP : Int) :
    Makes (XO (F := F) fastP slowP).toIndicator (fun _ => True) (XO.out fastP slowP) := by
  intro it n x hx
  refine ⟨_, GetOHLC_tab hx, fun _ data => ?_, fun h => absurd trivial h⟩
  show XO.Calculation fastP slowP _ data = _
  simp only [XO.Calculation, ohlcOf, Ema_tab, ok_bind, tab_length]
  exact makeLoop_tab _ fun k hk => by simp only [idx_tab hk, ok_bind]; rfl

end Verif.Ind
