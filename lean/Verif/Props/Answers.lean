import Verif.Props.Indicators
import Verif.Ind.Defaults
import Verif.Props.Smc

/-!
# When an indicator answers (C77)

`Answers I need` lists the indicator types with all their parameters; `need n` says for which numbers of
candles the first `GetData` of a new object returns. Where it does not hold, the Go code panics.
-/

set_option linter.unusedSectionVars false

namespace Verif.Props
open Verif Verif.Klines Verif.Ta Verif.Ind GoFloat

variable {F : Type} [GoMath F]

/-- The indicators and the numbers `n` of candles they can handle. -/
inductive Answers : Indicator F → (Nat → Prop) → Prop
  | apo (a b : Int) : Answers (APO a b).toIndicator (fun _ => True)
  | volumeOscillator (a b : Int) : Answers (VolOsc a b) (fun _ => True)
  | camarilla (a : Int) : Answers (Camarilla a) (fun _ => True)
  | sma (p : Int) : Answers (SMA p) (fun n => 0 ≤ p ∨ n = 0)
  | ema (p : Int) : Answers (EMA p) (fun _ => True)
  | dema (p : Int) : Answers (DEMA p) (fun _ => True)
  | macd (a b c : Int) : Answers (MACD a b c).toIndicator (fun _ => True)
  | atr (p : Int) : Answers (ATR p) (fun _ => True)
  | vegas (p a b c d : Int) : Answers (Vegas p a b c d).toIndicator (fun _ => True)
  | adx (p l : Int) : Answers (ADX p l) (fun n => 0 < p ∧ (0 ≤ l ∨ n = 0))
  | linRegCandles (s l : Int) (sma : Bool) : Answers (LRC s l sma) (fun n => (0 < l ∧ l ≤ n) ∧ (sma = true → 0 ≤ s ∨ n = 0))
  | traderXO (a b : Int) : Answers (XO a b).toIndicator (fun _ => True)
  | superTrend (p m : Int) (c : Bool) : Answers (ST p m c).toIndicator (fun n => (p < 2 ∨ p < n) ∧ (c = false → 0 ≤ p ∨ n = 0))
  | pivotPointSuperTrend (p a : Int) (f : F) : Answers (PPST p a f).toIndicator (fun n => 0 ≤ p ∧ (a < 2 ∨ a < n))
  | utBot (p a : Int) : Answers (UT p a).toIndicator (fun n => a < 2 ∨ a < n)
  | kdj (p : Int) : Answers (KDJ p).toIndicator (fun n => p ≠ 1 ∨ n = 0)
  | reversal : Answers Rev (fun _ => True)
  | breakout (s : F) (l : Int) : Answers (BP s l) (fun _ => True)
  | boll (p k : Int) : Answers (Boll p k).toIndicator (fun n => 0 < p ∨ n = 0)
  | ad : Answers AD (fun _ => True)
  | cmf (p : Int) : Answers (CMF p) (fun n => 0 ≤ p ∨ n = 0)
  | easeOfMovement (p : Int) : Answers (EMV p) (fun n => 0 ≤ p ∨ n = 0)
  | forceIndex (p : Int) : Answers (Force p) (fun _ => True)
  | nvi : Answers NVI (fun _ => True)
  | obv : Answers OBV (fun _ => True)
  | vpt (p : Int) : Answers (VPT p) (fun n => 0 < n ∧ 0 ≤ p)
  | vwma (p : Int) : Answers (VWMA p) (fun n => 0 ≤ p ∨ n = 0)
  | mfi (p : Int) : Answers (MFI p).toIndicator (fun n => 0 ≤ p ∨ n = 0)
  | awesome : Answers Awesome.toIndicator (fun _ => True)
  | chaikin (a b : Int) : Answers (Chaikin a b).toIndicator (fun _ => True)
  | ppo (a b c : Int) : Answers (PPO a b c).toIndicator (fun _ => True)
  | stoch (p : Int) : Answers (Stoch p).toIndicator (fun n => 0 < p ∨ (p = 0 ∧ n = 0))
  | williams (p : Int) : Answers (Williams p).toIndicator (fun n => 0 < p ∨ (p = 0 ∧ n = 0))
  | projection (p s : Int) : Answers (Projection p s).toIndicator (fun n => 0 < p ∨ (p = 0 ∧ n = 0))
  | ichimoku (a b c : Int) : Answers (Ichimoku a b c).toIndicator (fun n => (0 < a ∨ (a = 0 ∧ n = 0)) ∧ (0 < b ∨ (b = 0 ∧ n = 0)) ∧ (0 ≤ c ∨ n = 0))
  | ma (p : Int) : Answers (MAi p) (fun n => 0 ≤ p ∨ n = 0)
  | aiCoinCCI (p : Int) : Answers (AiCCI p).toIndicator (fun _ => True)
  | cci (p s : Int) : Answers (CCIi p s).toIndicator (fun n => 0 < p ∧ (0 ≤ s ∨ n = 0))
  | rsi (p : Int) : Answers (RSI p).toIndicator (fun n => p < 2 ∨ p ≠ n)
  | stochRsi (a b r s : Int) : Answers (StochRSI a b r s).toIndicator (fun n => (r < 2 ∨ r ≠ n) ∧ (0 < s ∨ (s = 0 ∧ n = 0)))
  | vortex (p : Int) : Answers (Vortex p) (fun n => 0 < p ∨ (p = 0 ∧ n < 2))
  | heatEma (i f s k : Int) : Answers (Heat i f s k .ema).toIndicator (fun n => 0 < i ∨ (i = 0 ∧ n = 0))
  | heatSma (i f s k : Int) : Answers (Heat i f s k .sma).toIndicator (fun n => (0 < i ∨ (i = 0 ∧ n = 0)) ∧ ((0 ≤ f ∨ n = 0) ∧ (0 ≤ s ∨ n = 0)))
  | heatWma (i f s k : Int) : Answers (Heat i f s k .wma).toIndicator (fun n => (0 < i ∨ (i = 0 ∧ n = 0)) ∧ ((0 < f ∧ f ≤ n + 1) ∨ (n = 0 ∧ f ≤ 0)) ∧
        (n = 0 ∨ (0 < s ∧ s ≤ n + 1)))
  | donchian (p : Int) : Answers (Donchian p).toIndicator (fun n => 0 < p ∨ (p = 0 ∧ n = 0))
  | keltner (p : Int) : Answers (Keltner p).toIndicator (fun _ => True)
  | ulcer (p : Int) : Answers (Ulcer p) (fun n => 0 < p ∨ (p = 0 ∧ n = 0))

theorem answers_of {I : Indicator F} {ok : Nat → Prop} {G} (h : Yields I ok G) (it : Item F) :
    (∃ d, I.data it = .ok d) ↔ ok it.candles.length := by
  obtain ⟨x, hx⟩ := candles_tab it
  exact ⟨fun ⟨d, hd⟩ => (yields_inv h hx hd).1, fun hn => ⟨_, (h it _ x hx).1 hn⟩⟩

/-- **C77.** A new indicator object answers `GetData` exactly for the stated numbers of candles, whatever the
candles contain; otherwise the call panics. -/
theorem C77_answers_iff {I : Indicator F} {need : Nat → Prop} (h : Answers I need) (it : Item F) :
    (∃ d, I.data it = .ok d) ↔ need it.candles.length := by
  cases h with
  | apo a b => exact answers_of (APO.makes a b).yields it
  | volumeOscillator a b => exact answers_of (VolOsc.makes a b).yields it
  | camarilla a => exact answers_of (Camarilla.makes a).yields it
  | sma p => exact answers_of (SMA.makes p).yields it
  | ema p => exact answers_of (EMA.makes p).yields it
  | dema p => exact answers_of (DEMA.makes p).yields it
  | macd a b c => exact answers_of (MACD.makes a b c).yields it
  | atr p => exact answers_of (ATR.makes p).yields it
  | vegas p a b c d => exact answers_of (Vegas.makes p a b c d).yields it
  | adx p l => exact answers_of (ADX.makes p l).yields it
  | linRegCandles s l sma => exact answers_of (LRC.makes s l sma).yields it
  | traderXO a b => exact answers_of (XO.makes a b).yields it
  | superTrend p m c => exact answers_of (ST.makes p m c).yields it
  | pivotPointSuperTrend p a f => exact answers_of (PPST.makes p a f).yields it
  | utBot p a => exact answers_of (UT.makes p a).yields it
  | kdj p => exact answers_of (KDJ.makes p).yields it
  | reversal => exact answers_of Rev.makes.yields it
  | breakout s l => exact answers_of (BP.makes s l).yields it
  | boll p k => exact answers_of (Boll.makes p k).yields it
  | ad => exact answers_of AD.appends.yields it
  | cmf p => exact answers_of (CMF.appends p).yields it
  | easeOfMovement p => exact answers_of (EMV.appends p).yields it
  | forceIndex p => exact answers_of (Force.appends p).yields it
  | nvi => exact answers_of NVI.appends.yields it
  | obv => exact answers_of OBV.grows.yields it
  | vpt p => exact answers_of (VPT.appends p).yields it
  | vwma p => exact answers_of (VWMA.appends p).yields it
  | mfi p => exact answers_of (MFI.appends p).yields it
  | awesome => exact answers_of Awesome.appends.yields it
  | chaikin a b => exact answers_of (Chaikin.appends a b).yields it
  | ppo a b c => exact answers_of (PPO.appends a b c).yields it
  | stoch p => exact answers_of (Stoch.appends p).yields it
  | williams p => exact answers_of (Williams.appends p).yields it
  | projection p s => exact answers_of (Projection.appends p s).yields it
  | ichimoku a b c => exact answers_of (Ichimoku.appends a b c).yields it
  | ma p => exact answers_of (MAi.appends p).yields it
  | aiCoinCCI p => exact answers_of (AiCCI.appends p).yields it
  | cci p s => exact answers_of (CCIi.appends p s).yields it
  | rsi p => exact answers_of (RSI.appends p).yields it
  | stochRsi a b r s => exact answers_of (StochRSI.appends a b r s).yields it
  | vortex p => exact answers_of (Vortex.appends p).yields it
  | heatEma i f s k =>
    refine (answers_of (Heat.appends i f s k .ema).yields it).trans ?_
    simp only [okW, okFast, okSlow, and_true]
  | heatSma i f s k =>
    refine (answers_of (Heat.appends i f s k .sma).yields it).trans ?_
    simp only [okW, okFast, okSlow, okS]
    omega
  | heatWma i f s k =>
    refine (answers_of (Heat.appends i f s k .wma).yields it).trans ?_
    simp only [okW, okFast, okSlow, okWma]
    omega
  | donchian p => exact answers_of (Donchian.appends p).yields it
  | keltner p => exact answers_of (Keltner.appends p).yields it
  | ulcer p => exact answers_of (Ulcer.appends p).yields it

/-- The default objects and the numbers of candles they can handle. -/
inductive DefaultAnswers : Indicator F → (Nat → Prop) → Prop
  | keltnerChannel : DefaultAnswers NewDefaultKeltnerChannel.toIndicator (fun _ => True)
  | boll : DefaultAnswers NewDefaultBoll.toIndicator (fun _ => True)
  | donchianChannel : DefaultAnswers NewDefaultDonchianChannel.toIndicator (fun _ => True)
  | ulcerIndex : DefaultAnswers NewDefaultUlcerIndex (fun _ => True)
  | stochRsi : DefaultAnswers NewDefaultStochRsi.toIndicator (fun n => n ≠ 14)
  | traderXO : DefaultAnswers NewDefaultTraderXO.toIndicator (fun _ => True)
  | aiCoinCCI : DefaultAnswers NewDefaultAiCoinCCI.toIndicator (fun _ => True)
  | vortex : DefaultAnswers NewDefaultVortex (fun _ => True)
  | kdj : DefaultAnswers NewDefaultKdj.toIndicator (fun _ => True)
  | eMAVegas : DefaultAnswers NewDefaultEMAVegas.toIndicator (fun _ => True)
  | macd : DefaultAnswers NewDefaultMacd.toIndicator (fun _ => True)
  | ma : DefaultAnswers NewDefaultMa (fun _ => True)
  | averageDirectionalIndex : DefaultAnswers NewDefaultAverageDirectionalIndex (fun _ => True)
  | superTrend : DefaultAnswers NewDefaultSuperTrend.toIndicator (fun n => 10 < n)
  | ema : DefaultAnswers NewDefaultEma (fun _ => True)
  | sma : DefaultAnswers NewDefaultSma (fun _ => True)
  | stochasticHeat : DefaultAnswers NewDefaultStochasticHeat.toIndicator (fun n => 25 ≤ n)
  | rsi : DefaultAnswers NewDefaultRsi.toIndicator (fun n => n ≠ 14)
  | atr : DefaultAnswers NewDefaultAtr (fun _ => True)
  | pivotPointSuperTrend : DefaultAnswers NewDefaultPivotPointSuperTrend.toIndicator (fun n => 8 < n)
  | breakoutProbability : DefaultAnswers NewDefaultBreakoutProbability (fun _ => True)
  | dema : DefaultAnswers NewDefaultDema (fun _ => True)
  | linearRegressionCandles : DefaultAnswers NewDefaultLinearRegressionCandles (fun n => 11 ≤ n)
  | cci : DefaultAnswers NewDefaultCci.toIndicator (fun _ => True)
  | uTBot : DefaultAnswers NewDefaultUTBot.toIndicator (fun _ => True)
  | chaikinOscillator : DefaultAnswers NewDefaultChaikinOscillator.toIndicator (fun _ => True)
  | stochasticOscillator : DefaultAnswers NewDefaultStochasticOscillator.toIndicator (fun _ => True)
  | ichimokuCloud : DefaultAnswers NewDefaultIchimokuCloud.toIndicator (fun _ => True)
  | projectionOscillator : DefaultAnswers NewDefaultProjectionOscillator.toIndicator (fun _ => True)
  | percentagePriceOscillator : DefaultAnswers NewDefaultPercentagePriceOscillator.toIndicator (fun _ => True)
  | camarilla : DefaultAnswers NewDefaultCamarilla (fun _ => True)
  | williamsR : DefaultAnswers NewDefaultWilliamsR.toIndicator (fun _ => True)
  | volumeOscillator : DefaultAnswers NewDefaultVolumeOscillator (fun _ => True)
  | vwma : DefaultAnswers NewDefaultVwma (fun _ => True)
  | forceIndex : DefaultAnswers NewDefaultForceIndex (fun _ => True)
  | moneyFlowIndex : DefaultAnswers NewDefaultMoneyFlowIndex.toIndicator (fun _ => True)
  | volumePriceTrend : DefaultAnswers NewDefaultVolumePriceTrend (fun n => 0 < n)
  | accumulationDistribution : DefaultAnswers NewDefaultAccumulationDistribution (fun _ => True)
  | easeOfMovement : DefaultAnswers NewDefaultEaseOfMovement (fun _ => True)
  | chaikinMoneyFlow : DefaultAnswers NewDefaultChaikinMoneyFlow (fun _ => True)
  | negativeVolumeIndex : DefaultAnswers NewDefaultNegativeVolumeIndex (fun _ => True)
  | absolutePriceOscillator : DefaultAnswers NewAbsolutePriceOscillator.toIndicator (fun _ => True)
  | awesomeOscillator : DefaultAnswers NewAwesomeOscillator.toIndicator (fun _ => True)
  | obv : DefaultAnswers NewObv (fun _ => True)
  | reversalSignals : DefaultAnswers NewReversalSignals (fun _ => True)

/-- **C77.** The default objects: of the listed ones only seven can fail. `Rsi` and `StochRsi` fail on exactly 14
candles, `VolumePriceTrend` on none, `PivotPointSuperTrend`, `SuperTrend`, `LinearRegressionCandles` and
`StochasticHeat` on fewer than 9, 11, 11 and 25. -/
theorem C77_defaults {I : Indicator F} {need : Nat → Prop} (h : DefaultAnswers I need) (it : Item F) :
    (∃ d, I.data it = .ok d) ↔ need it.candles.length := by
  cases h with
  | keltnerChannel => exact (C77_answers_iff (.keltner 20) it).trans (by simp)
  | boll => exact (C77_answers_iff (.boll 20 2) it).trans (by simp)
  | donchianChannel => exact (C77_answers_iff (.donchian 20) it).trans (by simp)
  | ulcerIndex => exact (C77_answers_iff (.ulcer 14) it).trans (by simp)
  | stochRsi => exact (C77_answers_iff (.stochRsi 3 3 14 14) it).trans (by simp; omega)
  | traderXO => exact (C77_answers_iff (.traderXO 12 25) it).trans (by simp)
  | aiCoinCCI => exact (C77_answers_iff (.aiCoinCCI 20) it).trans (by simp)
  | vortex => exact (C77_answers_iff (.vortex 9) it).trans (by simp)
  | kdj => exact (C77_answers_iff (.kdj 9) it).trans (by simp)
  | eMAVegas => exact (C77_answers_iff (.vegas 12 144 169 575 676) it).trans (by simp)
  | macd => exact (C77_answers_iff (.macd 12 9 26) it).trans (by simp)
  | ma => exact (C77_answers_iff (.ma 20) it).trans (by simp)
  | averageDirectionalIndex => exact (C77_answers_iff (.adx 30 14) it).trans (by simp)
  | superTrend => exact (C77_answers_iff (.superTrend 10 3 true) it).trans (by simp)
  | ema => exact (C77_answers_iff (.ema 5) it).trans (by simp)
  | sma => exact (C77_answers_iff (.sma 9) it).trans (by simp)
  | stochasticHeat => exact (C77_answers_iff (.heatWma 8 7 26 25) it).trans (by beta_reduce; omega)
  | rsi => exact (C77_answers_iff (.rsi 14) it).trans (by simp; omega)
  | atr => exact (C77_answers_iff (.atr 14) it).trans (by simp)
  | pivotPointSuperTrend => exact (C77_answers_iff (.pivotPointSuperTrend 3 8 (lit (28/10))) it).trans (by simp)
  | breakoutProbability => exact (C77_answers_iff (.breakout (lit (12/10)) 5) it).trans (by simp)
  | dema => exact (C77_answers_iff (.dema 20) it).trans (by simp)
  | linearRegressionCandles => exact (C77_answers_iff (.linRegCandles 7 11 true) it).trans (by simp)
  | cci => exact (C77_answers_iff (.cci 20 20) it).trans (by simp)
  | uTBot => exact (C77_answers_iff (.utBot 2 1) it).trans (by simp)
  | chaikinOscillator => exact (C77_answers_iff (.chaikin 3 10) it).trans (by simp)
  | stochasticOscillator => exact (C77_answers_iff (.stoch 14) it).trans (by simp)
  | ichimokuCloud => exact (C77_answers_iff (.ichimoku 20 60 120) it).trans (by simp)
  | projectionOscillator => exact (C77_answers_iff (.projection 13 3) it).trans (by simp)
  | percentagePriceOscillator => exact (C77_answers_iff (.ppo 12 26 9) it).trans (by simp)
  | camarilla => exact (C77_answers_iff (.camarilla 8) it).trans (by simp)
  | williamsR => exact (C77_answers_iff (.williams 14) it).trans (by simp)
  | volumeOscillator => exact (C77_answers_iff (.volumeOscillator 5 10) it).trans (by simp)
  | vwma => exact (C77_answers_iff (.vwma 5) it).trans (by simp)
  | forceIndex => exact (C77_answers_iff (.forceIndex 13) it).trans (by simp)
  | moneyFlowIndex => exact (C77_answers_iff (.mfi 14) it).trans (by simp)
  | volumePriceTrend => exact (C77_answers_iff (.vpt 14) it).trans (by simp)
  | accumulationDistribution => exact (C77_answers_iff (.ad) it).trans (by simp)
  | easeOfMovement => exact (C77_answers_iff (.easeOfMovement 14) it).trans (by simp)
  | chaikinMoneyFlow => exact (C77_answers_iff (.cmf 20) it).trans (by simp)
  | negativeVolumeIndex => exact (C77_answers_iff (.nvi) it).trans (by simp)
  | absolutePriceOscillator => exact (C77_answers_iff (.apo 14 30) it).trans (by simp)
  | awesomeOscillator => exact (C77_answers_iff (.awesome) it).trans (by simp)
  | obv => exact (C77_answers_iff (.obv) it).trans (by simp)
  | reversalSignals => exact (C77_answers_iff (.reversal) it).trans (by simp)

/-- `Rma` always answers. -/
theorem C77_rma_answers (period : Int) (it : Item F) :
    (∃ d, (RMA period).data it = .ok d) ∧ ∃ d, NewDefaultRma.data it = .ok d := by
  suffices h : ∀ period, ∃ d, (RMA period).data it = .ok d from ⟨h _, h _⟩
  intro period
  obtain ⟨x, hx⟩ := candles_tab it
  have h := RMA.run period hx []
  exact ⟨List.replicate it.candles.length Rec.zero ++ tab it.candles.length (RMA.out period x), by
    simp [Indicator.data, Indicator.new, Obj.GetData, Obj.read, Obj.ensure, Obj.Calculation, h]⟩

/-- The default `SmartMoneyConcepts` needs 201 candles. -/
theorem C77_smc_default {G : Type} [GoFloat G] {L : Type} [LinearOrder L] {o : OrdKey G L} (ho : Smc.Laws o)
    {it : Item G} {n : Nat} {x : Nat → Candle G} (hx : it.candles = tab n x) (hc : Smc.Clean o n x) :
    (∃ r, smcRun NewDefaultSmartMoneyConcepts it = .ok r) ↔ 200 < n :=
  (C67_smc_returns_iff ho hx hc rfl).trans (by simp [Smc.Cfg.default, Smc.Cfg.new])

/-- **C77.** The strategies fail for the same numbers of candles. -/
theorem C77_signals_iff {I : Strat F} {need : Nat → Prop} (hs : Strategies I) (h : Answers I.toIndicator need)
    (it : Item F) : (∃ s, I.signals it = .ok s) ↔ need it.candles.length :=
  (C40_signals_exist hs it).trans (C77_answers_iff h it)

/-- `n` one-minute candles. -/
noncomputable def minutes (n : Nat) : Item (XF ℝ) :=
  { exchange := "x", interval := 60, symbol := "s", code := "c",
    candles := (List.range n).map fun (i : Nat) => candleOf (60 * i) 1 3 1 2 10 }

/-- Fourteen candles are a bad number for the default `Rsi`: thirteen and fifteen are fine. -/
example : (¬ ∃ d, (NewDefaultRsi (F := XF ℝ)).data (minutes 14) = .ok d) ∧
    (∃ d, (NewDefaultRsi (F := XF ℝ)).data (minutes 13) = .ok d) ∧
    ∃ d, (NewDefaultRsi (F := XF ℝ)).data (minutes 15) = .ok d := by
  have h (n : Nat) := C77_defaults (F := XF ℝ) .rsi (minutes n)
  refine ⟨fun hd => (h 14).mp hd (by simp [minutes]), (h 13).mpr (by simp [minutes]), (h 15).mpr (by simp [minutes])⟩

/-- The default `SuperTrend` needs an eleventh candle, also for its signals. -/
example : (¬ ∃ d, (NewDefaultSuperTrend (F := XF ℝ)).data (minutes 10) = .ok d) ∧
    ∃ s, (NewDefaultSuperTrend (F := XF ℝ)).signals (minutes 11) = .ok s := by
  refine ⟨fun hd => absurd ((C77_defaults .superTrend _).mp hd) (by simp [minutes]),
    (C77_signals_iff (.zeroFirst (.superTrend 10 3 true)) (.superTrend 10 3 true) _).mpr (by simp [minutes])⟩

end Verif.Props
