import Verif.Ind.Signals
import Verif.Ind.Volume
import Verif.Go.Real
import Verif.Props.KlineTech
import Mathlib.Data.List.Infix
import Mathlib.Tactic.Common

/-!
# Properties shared by the indicators (C36-C40)

`Library I time` lists the indicator types of `trend/`, `channel/`, `oscillator/` and `volume/` with all
their parameters; `time` reads the `Time` field of a record. Two types are not in the list: `Rma`, for which
the alignment properties fail (`C36_rma_not_causal`, `C37_rma_two_per_candle`), and
`SmartMoneyConcepts`. `Strategies` lists the types that implement `AnalysisSide`.
-/

set_option linter.unusedSectionVars false

namespace Verif.Props
open Verif Verif.Klines Verif.Ta Verif.Ind GoFloat

variable {F : Type} [GoMath F]

/-! ## The list -/

/-- The indicators whose `Calculation` builds a new slice, with the `Time` field of their records. -/
inductive Fresh : (I : Indicator F) → (I.D → Int) → Prop
  | apo (a b : Int) : Fresh (APO a b).toIndicator Rec.time
  | volumeOscillator (a b : Int) : Fresh (VolOsc a b) Rec.time
  | camarilla (a : Int) : Fresh (Camarilla a) Camarilla.Data.time
  | sma (p : Int) : Fresh (SMA p) Rec.time
  | ema (p : Int) : Fresh (EMA p) Rec.time
  | dema (p : Int) : Fresh (DEMA p) Rec.time
  | macd (a b c : Int) : Fresh (MACD a b c).toIndicator MACD.Data.time
  | atr (p : Int) : Fresh (ATR p) ATR.Data.time
  | vegas (p a b c d : Int) : Fresh (Vegas p a b c d).toIndicator Vegas.Data.time
  | adx (p l : Int) : Fresh (ADX p l) ADX.Data.time
  | linRegCandles (a b : Int) (s : Bool) : Fresh (LRC a b s) LRC.Data.time
  | traderXO (a b : Int) : Fresh (XO a b).toIndicator XO.Data.time
  | superTrend (p m : Int) (c : Bool) : Fresh (ST p m c).toIndicator ST.Data.time
  | pivotPointSuperTrend (p a : Int) (f : F) : Fresh (PPST p a f).toIndicator ST.Data.time
  | utBot (p a : Int) : Fresh (UT p a).toIndicator UT.Data.time
  | kdj (p : Int) : Fresh (KDJ p).toIndicator KDJ.Data.time
  | reversal : Fresh Rev Rev.Data.time
  | breakout (s : F) (n : Int) : Fresh (BP s n) BP.Data.time
  | boll (p k : Int) : Fresh (Boll p k).toIndicator Boll.Data.time

/-- The indicators whose `Calculation` appends to the slice it finds. -/
inductive Accumulating : (I : Indicator F) → (I.D → Int) → Prop
  | ad : Accumulating AD Rec.time
  | cmf (p : Int) : Accumulating (CMF p) Rec.time
  | easeOfMovement (p : Int) : Accumulating (EMV p) Rec.time
  | forceIndex (p : Int) : Accumulating (Force p) Rec.time
  | nvi : Accumulating NVI Rec.time
  | obv : Accumulating OBV Rec.time
  | vpt (p : Int) : Accumulating (VPT p) Rec.time
  | vwma (p : Int) : Accumulating (VWMA p) Rec.time
  | mfi (p : Int) : Accumulating (MFI p).toIndicator Rec.time
  | awesome : Accumulating Awesome.toIndicator Rec.time
  | chaikin (a b : Int) : Accumulating (Chaikin a b).toIndicator Chaikin.Data.time
  | ppo (a b c : Int) : Accumulating (PPO a b c).toIndicator PPO.Data.time
  | stoch (p : Int) : Accumulating (Stoch p).toIndicator KD.time
  | williams (p : Int) : Accumulating (Williams p).toIndicator Rec.time
  | projection (a b : Int) : Accumulating (Projection a b).toIndicator Projection.Data.time
  | ichimoku (a b c : Int) : Accumulating (Ichimoku a b c).toIndicator Ichimoku.Data.time
  | ma (p : Int) : Accumulating (MAi p) Rec.time
  | aiCoinCCI (p : Int) : Accumulating (AiCCI p).toIndicator Rec.time
  | cci (p q : Int) : Accumulating (CCIi p q).toIndicator Rec.time
  | rsi (p : Int) : Accumulating (RSI p).toIndicator Rec.time
  | stochRsi (a b c d : Int) : Accumulating (StochRSI a b c d).toIndicator KD.time
  | vortex (p : Int) : Accumulating (Vortex p) Vortex.Data.time
  | stochasticHeat (a b c d : Int) (k : MAKind) : Accumulating (Heat a b c d k).toIndicator Heat.Data.time
  | donchian (p : Int) : Accumulating (Donchian p).toIndicator Band.time
  | keltner (p : Int) : Accumulating (Keltner p).toIndicator Band.time
  | ulcer (p : Int) : Accumulating (Ulcer p) Rec.time

/-- The library. -/
def Library (I : Indicator F) (time : I.D → Int) : Prop := Fresh I time ∨ Accumulating I time

/-- The types with an `AnalysisSide` method that never writes the entry of the first candle. -/
inductive ZeroFirst : Strat F → Prop
  | apo (a b : Int) : ZeroFirst (APO a b)
  | awesome : ZeroFirst Awesome
  | chaikin (a b : Int) : ZeroFirst (Chaikin a b)
  | ppo (a b c : Int) : ZeroFirst (PPO a b c)
  | stoch (p : Int) : ZeroFirst (Stoch p)
  | stochRsi (a b c d : Int) : ZeroFirst (StochRSI a b c d)
  | williams (p : Int) : ZeroFirst (Williams p)
  | projection (a b : Int) : ZeroFirst (Projection a b)
  | ichimoku (a b c : Int) : ZeroFirst (Ichimoku a b c)
  | macd (a b c : Int) : ZeroFirst (MACD a b c)
  | aiCoinCCI (p : Int) : ZeroFirst (AiCCI p)
  | cci (p q : Int) : ZeroFirst (CCIi p q)
  | rsi (p : Int) : ZeroFirst (RSI p)
  | kdj (p : Int) : ZeroFirst (KDJ p)
  | stochasticHeat (a b c d : Int) (k : MAKind) : ZeroFirst (Heat a b c d k)
  | superTrend (p m : Int) (c : Bool) : ZeroFirst (ST p m c)
  | pivotPointSuperTrend (p a : Int) (f : F) : ZeroFirst (PPST p a f)
  | utBot (p a : Int) : ZeroFirst (UT p a)
  | donchian (p : Int) : ZeroFirst (Donchian p)
  | keltner (p : Int) : ZeroFirst (Keltner p)
  | boll (p k : Int) : ZeroFirst (Boll p k)
  | mfi (p : Int) : ZeroFirst (MFI p)
  | vegas (p a b c d : Int) : ZeroFirst (Vegas p a b c d)

/-- The types with an `AnalysisSide` method of the common shape (`Camarilla` takes a second item). -/
inductive Strategies : Strat F → Prop
  | zeroFirst {I : Strat F} (h : ZeroFirst I) : Strategies I
  | traderXO (a b : Int) : Strategies (XO a b)

theorem Fresh.makes {I : Indicator F} {time : I.D → Int} (h : Fresh I time) : ∃ ok G, Makes I ok G := by
  cases h with
  | apo a b => exact ⟨_, _, APO.makes a b⟩
  | volumeOscillator a b => exact ⟨_, _, VolOsc.makes a b⟩
  | camarilla a => exact ⟨_, _, Camarilla.makes a⟩
  | sma p => exact ⟨_, _, SMA.makes p⟩
  | ema p => exact ⟨_, _, EMA.makes p⟩
  | dema p => exact ⟨_, _, DEMA.makes p⟩
  | macd a b c => exact ⟨_, _, MACD.makes a b c⟩
  | atr p => exact ⟨_, _, ATR.makes p⟩
  | vegas p a b c d => exact ⟨_, _, Vegas.makes p a b c d⟩
  | adx p l => exact ⟨_, _, ADX.makes p l⟩
  | linRegCandles a b s => exact ⟨_, _, LRC.makes a b s⟩
  | traderXO a b => exact ⟨_, _, XO.makes a b⟩
  | superTrend p m c => exact ⟨_, _, ST.makes p m c⟩
  | pivotPointSuperTrend p a f => exact ⟨_, _, PPST.makes p a f⟩
  | utBot p a => exact ⟨_, _, UT.makes p a⟩
  | kdj p => exact ⟨_, _, KDJ.makes p⟩
  | reversal => exact ⟨_, _, Rev.makes⟩
  | breakout s n => exact ⟨_, _, BP.makes s n⟩
  | boll p k => exact ⟨_, _, Boll.makes p k⟩

/-- Closed form and `Time` field together. -/
theorem Accumulating.grows {I : Indicator F} {time : I.D → Int} (h : Accumulating I time) :
    ∃ ok G, Grows I ok G ∧ ∀ x i, time (G x i) = ti x i := by
  cases h with
  | ad => exact ⟨_, _, AD.appends.grows, fun _ _ => rfl⟩
  | cmf p => exact ⟨_, _, (CMF.appends p).grows, fun _ _ => rfl⟩
  | easeOfMovement p => exact ⟨_, _, (EMV.appends p).grows, fun _ _ => rfl⟩
  | forceIndex p => exact ⟨_, _, (Force.appends p).grows, fun _ _ => rfl⟩
  | nvi => exact ⟨_, _, NVI.appends.grows, fun _ _ => rfl⟩
  | obv => exact ⟨_, _, OBV.grows, fun _ _ => rfl⟩
  | vpt p => exact ⟨_, _, (VPT.appends p).grows, fun _ _ => rfl⟩
  | vwma p => exact ⟨_, _, (VWMA.appends p).grows, fun _ _ => rfl⟩
  | mfi p => exact ⟨_, _, (MFI.appends p).grows, fun _ _ => rfl⟩
  | awesome => exact ⟨_, _, Awesome.appends.grows, fun _ _ => rfl⟩
  | chaikin a b => exact ⟨_, _, (Chaikin.appends a b).grows, fun _ _ => rfl⟩
  | ppo a b c => exact ⟨_, _, (PPO.appends a b c).grows, fun _ _ => rfl⟩
  | stoch p => exact ⟨_, _, (Stoch.appends p).grows, fun _ _ => rfl⟩
  | williams p => exact ⟨_, _, (Williams.appends p).grows, fun _ _ => rfl⟩
  | projection a b => exact ⟨_, _, (Projection.appends a b).grows, fun _ _ => rfl⟩
  | ichimoku a b c => exact ⟨_, _, (Ichimoku.appends a b c).grows, fun _ _ => rfl⟩
  | ma p => exact ⟨_, _, (MAi.appends p).grows, fun _ _ => rfl⟩
  | aiCoinCCI p => exact ⟨_, _, (AiCCI.appends p).grows, fun _ _ => rfl⟩
  | cci p q => exact ⟨_, _, (CCIi.appends p q).grows, fun _ _ => rfl⟩
  | rsi p => exact ⟨_, _, (RSI.appends p).grows, fun _ _ => rfl⟩
  | stochRsi a b c d => exact ⟨_, _, (StochRSI.appends a b c d).grows, fun _ _ => rfl⟩
  | vortex p => exact ⟨_, _, (Vortex.appends p).grows, fun _ _ => rfl⟩
  | stochasticHeat a b c d k => exact ⟨_, _, (Heat.appends a b c d k).grows, fun _ _ => rfl⟩
  | donchian p => exact ⟨_, _, (Donchian.appends p).grows, fun _ _ => rfl⟩
  | keltner p => exact ⟨_, _, (Keltner.appends p).grows, fun _ _ => rfl⟩
  | ulcer p => exact ⟨_, _, (Ulcer.appends p).grows, fun _ _ => rfl⟩

theorem Library.yields {I : Indicator F} {time : I.D → Int} (h : Library I time) : ∃ ok G, Yields I ok G := by
  rcases h with h | h
  · obtain ⟨ok, G, h⟩ := h.makes
    exact ⟨ok, G, h.yields⟩
  · obtain ⟨ok, G, h, _⟩ := h.grows
    exact ⟨ok, G, h.yields⟩

theorem ZeroFirst.signals {I : Strat F} (h : ZeroFirst I) : ∃ ok f, Signals I ok f := by
  cases h with
  | apo a b => exact ⟨_, _, APO.signals a b⟩
  | awesome => exact ⟨_, _, Awesome.signals⟩
  | chaikin a b => exact ⟨_, _, Chaikin.signals a b⟩
  | ppo a b c => exact ⟨_, _, PPO.signals a b c⟩
  | stoch p => exact ⟨_, _, Stoch.signals p⟩
  | stochRsi a b c d => exact ⟨_, _, StochRSI.signals a b c d⟩
  | williams p => exact ⟨_, _, Williams.signals p⟩
  | projection a b => exact ⟨_, _, Projection.signals a b⟩
  | ichimoku a b c => exact ⟨_, _, Ichimoku.signals a b c⟩
  | macd a b c => exact ⟨_, _, MACD.signals a b c⟩
  | aiCoinCCI p => exact ⟨_, _, AiCCI.signals p⟩
  | cci p q => exact ⟨_, _, CCIi.signals p q⟩
  | rsi p => exact ⟨_, _, RSI.signals p⟩
  | kdj p => exact ⟨_, _, KDJ.signals p⟩
  | stochasticHeat a b c d k => exact ⟨_, _, Heat.signals a b c d k⟩
  | superTrend p m c => exact ⟨_, _, ST.signals p m c⟩
  | pivotPointSuperTrend p a f => exact ⟨_, _, PPST.signals p a f⟩
  | utBot p a => exact ⟨_, _, UT.signals p a⟩
  | donchian p => exact ⟨_, _, Donchian.signals p⟩
  | keltner p => exact ⟨_, _, Keltner.signals p⟩
  | boll p k => exact ⟨_, _, Boll.signals p k⟩
  | mfi p => exact ⟨_, _, MFI.signals p⟩
  | vegas p a b c d => exact ⟨_, _, Vegas.signals p a b c d⟩

theorem Strategies.signals {I : Strat F} (h : Strategies I) : ∃ ok f, Signals I ok f := by
  cases h with
  | zeroFirst h => exact h.signals
  | traderXO a b => exact ⟨_, _, XO.signals a b⟩

theorem candles_tab_append {it it' : Item F} {later : List (Candle F)}
    (hc : it.candles = it'.candles ++ later) :
    ∃ x, it.candles = tab it.candles.length x ∧ it'.candles = tab it'.candles.length x := by
  obtain ⟨x, hx⟩ := candles_tab it
  have hle : it'.candles.length ≤ it.candles.length := by rw [hc, List.length_append]; omega
  refine ⟨x, hx, ?_⟩
  have h1 : it'.candles = it.candles.take it'.candles.length := by rw [hc, List.take_left]
  rw [hx, tab_take _ hle] at h1
  exact h1

/-! ## A concrete series for the examples -/

/-- Three candles at times 60, 120, 180. -/
noncomputable def sample (n : Nat) : Item (XF ℝ) :=
  { exchange := "x", interval := 60, symbol := "s", code := "c",
    candles := [candleOf 60 1 3 1 2 10, candleOf 120 2 5 2 4 20, candleOf 180 4 4 1 1 30].take n }

theorem sample_ema (n : Nat) : ∃ d, (EMA (F := XF ℝ) 2).data (sample n) = .ok d := by
  obtain ⟨x, hx⟩ := candles_tab (sample n)
  exact ⟨_, ((EMA.makes 2).yields _ _ x hx).1 trivial⟩

theorem sample_rsi : ∃ d, (RSI (F := XF ℝ) 2).data (sample 3) = .ok d := by
  obtain ⟨x, hx⟩ := candles_tab (sample 3)
  exact ⟨_, ((RSI.appends 2).yields _ _ x hx).1 (Or.inr (by simp [sample]))⟩

/-! ## C36 -/

/-- C36: when candles are added at the end, the records of the earlier candles stay exactly what they were
without the new candles. -/
theorem C36_no_lookahead {I : Indicator F} {time : I.D → Int} (h : Library I time) {it it' : Item F}
    {later : List (Candle F)} (hc : it.candles = it'.candles ++ later) {d d' : List I.D}
    (hd : I.data it = .ok d) (hd' : I.data it' = .ok d') : d.take it'.candles.length = d' := by
  obtain ⟨ok, G, hy⟩ := h.yields
  obtain ⟨x, hx, hx'⟩ := candles_tab_append hc
  have hle : it'.candles.length ≤ it.candles.length := by rw [hc, List.length_append]; omega
  rw [(yields_inv hy hx hd).2, (yields_inv hy hx' hd').2, tab_take _ hle]

/-- The hypotheses of `C36_no_lookahead` hold for a three-candle series and its two-candle prefix. -/
example : ∃ d d', (EMA (F := XF ℝ) 2).data (sample 3) = .ok d ∧ (EMA (F := XF ℝ) 2).data (sample 2) = .ok d' ∧
    d.take 2 = d' := by
  obtain ⟨d, hd⟩ := sample_ema 3
  obtain ⟨d', hd'⟩ := sample_ema 2
  exact ⟨d, d', hd, hd', C36_no_lookahead (Or.inl (.ema 2)) (it := sample 3) (it' := sample 2) rfl hd hd'⟩

/-- C36 for the signals: a side once emitted for a candle is never changed by later candles. -/
theorem C36_signals_no_lookahead {I : Strat F} (h : Strategies I) {it it' : Item F}
    {later : List (Candle F)} (hc : it.candles = it'.candles ++ later) {s s' : List Side}
    (hs : I.signals it = .ok s) (hs' : I.signals it' = .ok s') : s.take it'.candles.length = s' := by
  obtain ⟨ok, f, hf⟩ := h.signals
  obtain ⟨x, hx, hx'⟩ := candles_tab_append hc
  have hle : it'.candles.length ≤ it.candles.length := by rw [hc, List.length_append]; omega
  rw [(signals_inv hf hx hs).2, (signals_inv hf hx' hs').2, tab_take _ hle]

/-- The hypotheses of `C36_signals_no_lookahead` hold for a three-candle series and its two-candle prefix. -/
example : ∃ s s', (MACD (F := XF ℝ) 1 2 3).signals (sample 3) = .ok s ∧
    (MACD (F := XF ℝ) 1 2 3).signals (sample 2) = .ok s' ∧ s.take 2 = s' := by
  obtain ⟨x, hx⟩ := candles_tab (sample 3)
  obtain ⟨y, hy⟩ := candles_tab (sample 2)
  have h := (MACD.signals 1 2 3 _ _ x hx).1 trivial
  have h' := (MACD.signals 1 2 3 _ _ y hy).1 trivial
  exact ⟨_, _, h, h', C36_signals_no_lookahead (.zeroFirst (.macd 1 2 3)) (it := sample 3) (it' := sample 2) rfl h h'⟩

/-! ## C37 -/

/-- C37: one record per candle, for every indicator of the library. -/
theorem C37_one_record_per_candle {I : Indicator F} {time : I.D → Int} (h : Library I time) {it : Item F}
    {d : List I.D} (hd : I.data it = .ok d) : d.length = it.candles.length := by
  obtain ⟨ok, G, hy⟩ := h.yields
  obtain ⟨x, hx⟩ := candles_tab it
  rw [(yields_inv hy hx hd).2, tab_length]

example : ∃ d, (RSI (F := XF ℝ) 2).data (sample 3) = .ok d ∧ d.length = 3 := by
  obtain ⟨d, hd⟩ := sample_rsi
  exact ⟨d, hd, C37_one_record_per_candle (Or.inr (.rsi 2)) hd⟩

/-- The three types that leave record 0 at its zero value. -/
inductive SkipsFirst : (I : Indicator F) → (I.D → Int) → Prop
  | utBot (p a : Int) : SkipsFirst (UT p a).toIndicator UT.Data.time
  | pivotPointSuperTrend (p a : Int) (f : F) : SkipsFirst (PPST p a f).toIndicator ST.Data.time
  | breakout (s : F) (n : Int) : SkipsFirst (BP s n) BP.Data.time

theorem Fresh.times {I : Indicator F} {time : I.D → Int} (h : Fresh I time) :
    ∃ ok G, Yields I ok G ∧ ∀ x i, (1 ≤ i ∨ ¬ SkipsFirst I time) → time (G x i) = ti x i := by
  cases h with
  | apo a b => exact ⟨_, _, (APO.makes a b).yields, fun _ _ _ => rfl⟩
  | volumeOscillator a b => exact ⟨_, _, (VolOsc.makes a b).yields, fun _ _ _ => rfl⟩
  | camarilla a => exact ⟨_, _, (Camarilla.makes a).yields, fun _ _ _ => rfl⟩
  | sma p => exact ⟨_, _, (SMA.makes p).yields, fun _ _ _ => rfl⟩
  | ema p => exact ⟨_, _, (EMA.makes p).yields, fun _ _ _ => rfl⟩
  | dema p => exact ⟨_, _, (DEMA.makes p).yields, fun _ _ _ => rfl⟩
  | macd a b c => exact ⟨_, _, (MACD.makes a b c).yields, fun _ _ _ => rfl⟩
  | atr p => exact ⟨_, _, (ATR.makes p).yields, fun _ _ _ => rfl⟩
  | vegas p a b c d => exact ⟨_, _, (Vegas.makes p a b c d).yields, fun _ _ _ => rfl⟩
  | adx p l => exact ⟨_, _, (ADX.makes p l).yields, fun _ _ _ => rfl⟩
  | linRegCandles a b s => exact ⟨_, _, (LRC.makes a b s).yields, fun _ _ _ => rfl⟩
  | traderXO a b => exact ⟨_, _, (XO.makes a b).yields, fun _ _ _ => rfl⟩
  | superTrend p m c => exact ⟨_, _, (ST.makes p m c).yields, fun _ _ _ => rfl⟩
  | pivotPointSuperTrend p a f =>
    refine ⟨_, _, (PPST.makes p a f).yields, fun x i hi => ?_⟩
    cases i with
    | zero => exact absurd (SkipsFirst.pivotPointSuperTrend p a f) (by simpa using hi)
    | succ i => rfl
  | utBot p a =>
    refine ⟨_, _, (UT.makes p a).yields, fun x i hi => ?_⟩
    cases i with
    | zero => exact absurd (SkipsFirst.utBot p a) (by simpa using hi)
    | succ i => rfl
  | kdj p => exact ⟨_, _, (KDJ.makes p).yields, fun _ _ _ => rfl⟩
  | reversal => exact ⟨_, _, Rev.makes.yields, fun _ _ _ => rfl⟩
  | breakout s n =>
    refine ⟨_, _, (BP.makes s n).yields, fun x i hi => ?_⟩
    cases i with
    | zero => exact absurd (SkipsFirst.breakout s n) (by simpa using hi)
    | succ i => rfl
  | boll p k => exact ⟨_, _, (Boll.makes p k).yields, fun _ _ _ => rfl⟩

/-- C37: record `i` carries the timestamp of candle `i`. Partial: for `UTBot`, `PivotPointSuperTrend` and
`BreakoutProbability` only from candle 1 on (`C37_record0_zero_time`); `Rma` is not in the list. -/
theorem C37_timestamps_partial {I : Indicator F} {time : I.D → Int} (h : Library I time) {it : Item F}
    {d : List I.D} (hd : I.data it = .ok d) {i : Nat} (hi : 1 ≤ i ∨ ¬ SkipsFirst I time) {r : I.D} {c : Candle F}
    (hr : d[i]? = some r) (hc : it.candles[i]? = some c) : time r = c.timeUnix := by
  obtain ⟨ok, G, hy, ht⟩ : ∃ ok G, Yields I ok G ∧ ∀ x i, (1 ≤ i ∨ ¬ SkipsFirst I time) → time (G x i) = ti x i := by
    rcases h with h | h
    · exact h.times
    · obtain ⟨ok, G, h, ht⟩ := h.grows
      exact ⟨ok, G, h.yields, fun x i _ => ht x i⟩
  obtain ⟨x, hx⟩ := candles_tab it
  have hn : i < it.candles.length := (List.getElem?_eq_some_iff.mp hc).1
  rw [(yields_inv hy hx hd).2, tab_getElem?_lt hn] at hr
  rw [hx, tab_getElem?_lt hn] at hc
  cases hr; cases hc
  exact ht x i hi

example : ∃ d r, (RSI (F := XF ℝ) 2).data (sample 3) = .ok d ∧ d[2]? = some r ∧ r.time = 180 := by
  obtain ⟨d, hd⟩ := sample_rsi
  have hl := C37_one_record_per_candle (Or.inr (.rsi 2)) hd
  have h2 : d[2]? = some (d[2]'(by rw [hl]; simp [sample])) := List.getElem?_eq_getElem _
  exact ⟨d, _, hd, h2, C37_timestamps_partial (Or.inr (.rsi 2)) hd (Or.inl (by omega)) h2 rfl⟩

/-- C37 refuted for the three types: record 0 carries the zero time whatever the candle's time is. -/
theorem C37_record0_zero_time {I : Indicator F} {time : I.D → Int} (hs : SkipsFirst I time)
    {it : Item F} {d : List I.D} (hd : I.data it = .ok d) {r : I.D} (hr : d[0]? = some r) :
    time r = -62135596800 := by
  obtain ⟨x, hx⟩ := candles_tab it
  have key : ∀ {ok G}, Yields I ok G → r = G x 0 := by
    intro ok G hy
    have h := (yields_inv hy hx hd).2
    have hn : 0 < it.candles.length := by
      have := (List.getElem?_eq_some_iff.mp hr).1
      rwa [h, tab_length] at this
    rw [h, tab_getElem?_lt hn] at hr
    exact (Option.some.inj hr).symm
  cases hs with
  | utBot p a => rw [key (UT.makes p a).yields]; rfl
  | pivotPointSuperTrend p a f => rw [key (PPST.makes p a f).yields]; rfl
  | breakout s n => rw [key (BP.makes s n).yields]; rfl

/-- The negation of C37 in a concrete case: a candle at time 60, a record at the zero time. -/
example : ∃ d r, (UT (F := XF ℝ) 1 1).data (sample 3) = .ok d ∧ d[0]? = some r ∧ r.time ≠ 60 := by
  obtain ⟨x, hx⟩ := candles_tab (sample 3)
  have hd := ((UT.makes 1 1).yields _ _ x hx).1 (Or.inl (by omega))
  have h0 := tab_getElem?_lt (x := UT.out 1 1 x) (show 0 < (sample 3).candles.length by simp [sample])
  exact ⟨_, _, hd, h0, by rw [C37_record0_zero_time (.utBot 1 1) hd h0]; decide⟩

/-- C37 refuted for `Rma`: two records per candle, the first half zero records. -/
theorem C37_rma_two_per_candle (period : Int) {it : Item F} {d : List (Rec F)}
    (hd : (RMA period).data it = .ok d) :
    d.length = 2 * it.candles.length ∧
      ∀ i, i < it.candles.length → d[i]? = some ⟨-62135596800, fl 0⟩ := by
  obtain ⟨x, hx⟩ := candles_tab it
  have h := RMA.run period hx []
  have hdd : (RMA period).data it = .ok (List.replicate it.candles.length Rec.zero ++
      tab it.candles.length (RMA.out period x)) := by
    simp [Indicator.data, Indicator.new, Obj.GetData, Obj.read, Obj.ensure, Obj.Calculation, h]
  rw [hd] at hdd
  obtain rfl := Except.ok.inj hdd
  refine ⟨by simp; omega, fun i hi => ?_⟩
  rw [List.getElem?_append_left (by simpa using hi), List.getElem?_replicate_of_lt hi]
  rfl

/-- C36 refuted for `Rma`: record 1 of a one-candle series carries the candle's time and value; with a second
candle it becomes a zero record. -/
theorem C36_rma_not_causal (period : Int) {it it' : Item F} {c c₂ : Candle F} (h1 : it'.candles = [c])
    (h2 : it.candles = [c, c₂]) (ht : c.timeUnix ≠ -62135596800) :
    ∃ d d' r r', (RMA period).data it = .ok d ∧ (RMA period).data it' = .ok d' ∧
      d[1]? = some r ∧ d'[1]? = some r' ∧ r.time ≠ r'.time := by
  have e1 : it'.candles = tab 1 (fun _ => c) := h1
  have e2 : it.candles = tab 2 (fun i => if i = 0 then c else c₂) := h2
  have d1 := RMA.run period e1 []
  have d2 := RMA.run period e2 []
  have g1 : (RMA period).data it' = .ok (List.replicate 1 Rec.zero ++ tab 1 (RMA.out period (fun _ => c))) := by
    simp [Indicator.data, Indicator.new, Obj.GetData, Obj.read, Obj.ensure, Obj.Calculation, d1]
  have g2 : (RMA period).data it = .ok (List.replicate 2 Rec.zero ++
      tab 2 (RMA.out period (fun i => if i = 0 then c else c₂))) := by
    simp [Indicator.data, Indicator.new, Obj.GetData, Obj.read, Obj.ensure, Obj.Calculation, d2]
  exact ⟨_, _, _, _, g2, g1, rfl, rfl, fun h => ht h.symm⟩

example : (RMA (F := XF ℝ) 2).data (sample 1) ≠ .error .index := by
  obtain ⟨x, hx⟩ := candles_tab (sample 1)
  simp [Indicator.data, Indicator.new, Obj.GetData, Obj.read, Obj.ensure, Obj.Calculation, RMA.run 2 hx]

/-! ## C38 -/

/-- A history of reading calls on one object. -/
def history {I : Indicator F} {R : Type} (rs : List (I.S → List I.D → Go R)) (e : Obj I) :
    Go (List R × Obj I) :=
  match rs with
  | [] => pure ([], e)
  | r :: rs => do
    let (v, e) ← e.read r
    let (vs, e) ← history rs e
    pure (v :: vs, e)

/-- What a reading call returns. -/
def answer {I : Indicator F} {R : Type} (r : I.S → List I.D → Go R) (e : Obj I) : Go R := do
  let (v, _) ← e.read r
  pure v

theorem ensure_src {I : Indicator F} {e e' : Obj I} (h : e.ensure = .ok e') : e'.ensure = .ok e' := by
  obtain ⟨s, d⟩ := e
  unfold Obj.ensure at h
  by_cases hd : d.length = 0
  · rw [if_pos hd] at h
    obtain rfl : d = [] := List.length_eq_zero_iff.mp hd
    simp only [Obj.Calculation] at h
    cases hc : I.compute s [] with
    | error p => simp [hc] at h
    | ok d' =>
      simp only [hc, ok_bind, pure_eq_ok, Except.ok.injEq] at h
      subst h
      unfold Obj.ensure
      by_cases hd' : d'.length = 0
      · obtain rfl : d' = [] := List.length_eq_zero_iff.mp hd'
        simp [Obj.Calculation, hc]
      · rw [if_neg hd']; rfl
  · rw [if_neg hd] at h
    cases h
    unfold Obj.ensure
    rw [if_neg hd]; rfl

theorem history_answer {I : Indicator F} {R Q : Type} (q : I.S → List I.D → Go Q)
    (rs : List (I.S → List I.D → Go R)) :
    ∀ (e e' : Obj I) (vs : List R), history rs e = .ok (vs, e') →
      answer q e' = answer q e ∧ (rs.map fun r => answer r e) = vs.map Except.ok := by
  induction rs with
  | nil => intro e e' vs h; cases h; exact ⟨rfl, rfl⟩
  | cons r rs ih =>
    intro e e' vs h
    simp only [history, Obj.read] at h
    cases he : e.ensure with
    | error p => simp [he] at h
    | ok e₁ =>
      cases hv : r e₁.src e₁.data with
      | error p => simp [he, hv] at h
      | ok v =>
        simp only [he, hv, ok_bind, pure_eq_ok] at h
        cases hh : history rs e₁ with
        | error p => simp [hh] at h
        | ok w =>
          obtain ⟨ws, e₂⟩ := w
          simp only [hh, ok_bind, Except.ok.injEq, Prod.mk.injEq] at h
          obtain ⟨rfl, rfl⟩ := h
          obtain ⟨h1, h2⟩ := ih e₁ e₂ ws hh
          have h₁ := ensure_src he
          have key : ∀ {R' : Type} (r' : I.S → List I.D → Go R'), answer r' e₁ = answer r' e := by
            intro R' r'
            simp only [answer, Obj.read, he, h₁]
          refine ⟨h1.trans (key q), ?_⟩
          rw [List.map_cons, List.map_cons, ← h2]
          congr 1
          · simp [answer, Obj.read, he, hv]
          · exact List.map_congr_left fun r' _ => (key r').symm

/-- C38: in any history of reading calls on a new object, every call returns what it returns on a new object,
and so does every further call. Holds for every indicator whose reading methods start with the guard. -/
theorem C38_reads_idempotent {I : Indicator F} {R Q : Type} {it : Item F} {e e' : Obj I}
    (hn : I.new it = .ok e) (rs : List (I.S → List I.D → Go R)) {vs : List R}
    (hh : history rs e = .ok (vs, e')) (q : I.S → List I.D → Go Q) :
    (rs.map fun r => I.get r it) = vs.map Except.ok ∧ answer q e' = I.get q it := by
  obtain ⟨h1, h2⟩ := history_answer q rs e e' vs hh
  have hg : ∀ {Q' : Type} (q' : I.S → List I.D → Go Q'), I.get q' it = answer q' e := by
    intro Q' q'
    simp only [Indicator.get, hn, ok_bind, answer]
  refine ⟨?_, by rw [hg, h1]⟩
  rw [← h2]
  exact List.map_congr_left fun r _ => hg r

/-- A history meeting the hypotheses: `GetData` twice on a three-candle series. -/
example : ∃ e vs e', (EMA (F := XF ℝ) 2).new (sample 3) = .ok e ∧
    history [fun _ d => pure d.length, fun _ d => pure d.length] e = .ok (vs, e') ∧ vs = [3, 3] := by
  obtain ⟨x, hx⟩ := candles_tab (sample 3)
  have hc : EMA.Calculation 2 (sample 3) [] = .ok (tab (sample 3).candles.length (EMA.out 2 x)) := by
    obtain ⟨s, hs, h1, _⟩ := EMA.makes 2 (sample 3) _ x hx
    cases hs
    exact h1 trivial []
  have hl : (sample 3).candles.length = 3 := by simp [sample]
  rw [hl] at hc
  refine ⟨⟨sample 3, []⟩, [3, 3], ⟨sample 3, tab 3 (EMA.out 2 x)⟩, rfl, ?_, rfl⟩
  have hne : tab 3 (EMA.out 2 x) ≠ [] := fun h => by simpa using congrArg List.length h
  simp [history, Obj.read, Obj.ensure, Obj.Calculation, hc, hne]

/-- C38 refuted for `Kdj.GetListK/D/J`: they return an empty list on a new object, but one entry per candle
once `GetData` was called. -/
theorem C38_kdj_lists_history_dependent (period : Int) (proj : KDJ.Data F → F) {it : Item F}
    {d : List (KDJ.Data F)} (hd : (KDJ period).data it = .ok d) {e : Obj (KDJ (F := F) period).toIndicator}
    (hn : (KDJ period).toIndicator.new it = .ok e) :
    KDJ.GetList proj e = .ok [] ∧
      ∃ d' e', e.GetData = .ok (d', e') ∧ KDJ.GetList proj e' = .ok (d.map proj) := by
  have he : e = ⟨it, []⟩ := (Except.ok.inj hn).symm
  subst he
  refine ⟨rfl, ?_⟩
  simp only [Indicator.data, hn, ok_bind] at hd
  cases hg : Obj.GetData (⟨it, []⟩ : Obj (KDJ (F := F) period).toIndicator) with
  | error p => simp [hg] at hd
  | ok w =>
    obtain ⟨d', e'⟩ := w
    simp only [hg, ok_bind, pure_eq_ok, Except.ok.injEq] at hd
    subst hd
    refine ⟨d', e', rfl, ?_⟩
    have hdata : e'.data = d' := by
      simp only [Obj.GetData, Obj.read, Obj.ensure, List.length_nil, if_true, Obj.Calculation] at hg
      cases hc : KDJ.Calculation period it [] with
      | error p => simp [hc] at hg
      | ok d₂ =>
        simp only [hc, ok_bind, pure_eq_ok, Except.ok.injEq, Prod.mk.injEq] at hg
        obtain ⟨rfl, rfl⟩ := hg
        rfl
    unfold KDJ.GetList
    rw [hdata]
    cases d' with
    | nil => rfl
    | cons a l =>
      obtain ⟨f, hf⟩ := exists_tab (a :: l) (by simp)
      rw [hf, valuesAppend_tab, map_tab]

/-! ## C39 -/

/-- `Calculation` called `m` times. -/
def calculations {I : Indicator F} : Nat → Obj I → Go (Obj I)
  | 0, e => pure e
  | m + 1, e => do
    let e ← calculations m e
    e.Calculation

/-- `New...(item)`, `m` calls of `Calculation`, then `GetData`. -/
def dataAfter (I : Indicator F) (m : Nat) (it : Item F) : Go (List I.D) := do
  let e ← I.new it
  let e ← calculations m e
  let (d, _) ← e.GetData
  pure d

/-- C39 for the types that build a new slice: `GetData` is the same after any number of recalculations.
Partial: for the other types the negation holds (`C39_accumulating_repeats`). -/
theorem C39_recalculation_partial {I : Indicator F} {time : I.D → Int} (h : Fresh I time) {it : Item F}
    {d : List I.D} (hd : I.data it = .ok d) (m : Nat) : dataAfter I m it = .ok d := by
  obtain ⟨ok, G, hm⟩ := h.makes
  obtain ⟨x, hx⟩ := candles_tab it
  obtain ⟨hok, rfl⟩ := yields_inv hm.yields hx hd
  obtain ⟨s, hs, h1, _⟩ := hm it _ x hx
  have hc : ∀ m, calculations (m + 1) (⟨s, []⟩ : Obj I) = .ok ⟨s, tab it.candles.length (G x)⟩ := by
    intro m
    induction m with
    | zero => simp [calculations, Obj.Calculation, h1 hok]
    | succ m ih => rw [calculations, ih]; simp [Obj.Calculation, h1 hok]
  cases m with
  | zero =>
    simp [dataAfter, Indicator.new, hs, calculations, Obj.GetData, Obj.read, Obj.ensure, Obj.Calculation, h1 hok]
  | succ m =>
    simp only [dataAfter, Indicator.new, hs, ok_bind, pure_eq_ok, hc, Obj.GetData, Obj.read, Obj.ensure]
    by_cases he : (tab it.candles.length (G x)).length = 0
    · simp only [if_pos he, Obj.Calculation, h1 hok]; rfl
    · simp only [if_neg he]; rfl

example (m : Nat) : ∃ d, (EMA (F := XF ℝ) 2).data (sample 3) = .ok d ∧
    dataAfter (EMA (F := XF ℝ) 2) m (sample 3) = .ok d := by
  obtain ⟨d, hd⟩ := sample_ema 3
  exact ⟨d, hd, C39_recalculation_partial (.ema 2) hd m⟩

/-- C39 refuted for the other types: after `m + 1` calls of `Calculation`, `GetData` holds the records of all
candles `m + 1` times in a row. -/
theorem C39_accumulating_repeats {I : Indicator F} {time : I.D → Int} (h : Accumulating I time) {it : Item F}
    {d : List I.D} (hd : I.data it = .ok d) (m : Nat) :
    dataAfter I (m + 1) it = .ok (List.replicate (m + 1) d).flatten := by
  obtain ⟨ok, G, hm, _⟩ := h.grows
  obtain ⟨x, hx⟩ := candles_tab it
  obtain ⟨hok, rfl⟩ := yields_inv hm.yields hx hd
  obtain ⟨s, hs, h1, _⟩ := hm it _ x hx
  have hc : ∀ m, calculations m (⟨s, []⟩ : Obj I) = .ok ⟨s, reps m (tab it.candles.length (G x))⟩ := by
    intro m
    induction m with
    | zero => rfl
    | succ m ih => rw [calculations, ih]; simp [Obj.Calculation, h1 hok]
  show _ = Except.ok (reps (m + 1) (tab it.candles.length (G x)))
  simp only [dataAfter, Indicator.new, hs, ok_bind, pure_eq_ok, hc, Obj.GetData, Obj.read, Obj.ensure]
  by_cases he : (reps (m + 1) (tab it.candles.length (G x))).length = 0
  · have hnil := List.length_eq_zero_iff.mp he
    have h0 : it.candles.length = 0 := by
      rw [reps_succ] at he
      simp only [List.length_append, tab_length] at he
      omega
    simp only [if_pos he, Obj.Calculation]
    have := h1 hok (m + 1)
    rw [this]
    simp only [ok_bind]
    rw [h0]
    simp [reps]
  · simp only [if_neg he, ok_bind]

/-- Concretely: six records for three candles after the second `Calculation` of an `Rsi`. -/
example : ∃ d, dataAfter (RSI (F := XF ℝ) 2).toIndicator 2 (sample 3) = .ok d ∧ d.length = 6 := by
  obtain ⟨d, hd⟩ := sample_rsi
  refine ⟨_, C39_accumulating_repeats (.rsi 2) hd 1, ?_⟩
  have hl := C37_one_record_per_candle (Or.inr (.rsi 2)) hd
  have h3 : (sample 3).candles.length = 3 := by simp [sample]
  simp [List.replicate_succ, hl, h3]

/-! ## C40 -/

/-- C40, first half: one side per candle. -/
theorem C40_one_side_per_candle {I : Strat F} (h : Strategies I) {it : Item F} {s : List Side}
    (hs : I.signals it = .ok s) : s.length = it.candles.length := by
  obtain ⟨ok, f, hf⟩ := h.signals
  obtain ⟨x, hx⟩ := candles_tab it
  rw [(signals_inv hf hx hs).2, tab_length]

/-- `AnalysisSide` panics exactly when `GetData` does. -/
theorem C40_signals_exist {I : Strat F} (h : Strategies I) (it : Item F) :
    (∃ s, I.signals it = .ok s) ↔ ∃ d, I.toIndicator.data it = .ok d := by
  constructor
  · rintro ⟨s, hs⟩
    cases hd : I.toIndicator.data it with
    | ok d => exact ⟨d, rfl⟩
    | error p =>
      rw [Strat.signals_eq, Indicator.get_of_error hd] at hs
      cases hs
  · rintro ⟨recs, hd⟩
    obtain ⟨x, hx⟩ := candles_tab it
    have key : ∀ {ok G f}, Yields I.toIndicator ok G → Signals I ok f → ∃ s, I.signals it = .ok s :=
      fun hy hf => ⟨_, (hf it _ x hx).1 (yields_inv hy hx hd).1⟩
    rcases h with h | ⟨a, b⟩
    case traderXO => exact key (XO.makes a b).yields (XO.signals a b)
    cases h with
    | apo a b => exact key (APO.makes a b).yields (APO.signals a b)
    | awesome => exact key Awesome.appends.yields Awesome.signals
    | chaikin a b => exact key (Chaikin.appends a b).yields (Chaikin.signals a b)
    | ppo a b c => exact key (PPO.appends a b c).yields (PPO.signals a b c)
    | stoch p => exact key (Stoch.appends p).yields (Stoch.signals p)
    | stochRsi a b c d => exact key (StochRSI.appends a b c d).yields (StochRSI.signals a b c d)
    | williams p => exact key (Williams.appends p).yields (Williams.signals p)
    | projection a b => exact key (Projection.appends a b).yields (Projection.signals a b)
    | ichimoku a b c => exact key (Ichimoku.appends a b c).yields (Ichimoku.signals a b c)
    | macd a b c => exact key (MACD.makes a b c).yields (MACD.signals a b c)
    | aiCoinCCI p => exact key (AiCCI.appends p).yields (AiCCI.signals p)
    | cci p q => exact key (CCIi.appends p q).yields (CCIi.signals p q)
    | rsi p => exact key (RSI.appends p).yields (RSI.signals p)
    | kdj p => exact key (KDJ.makes p).yields (KDJ.signals p)
    | stochasticHeat a b c d k => exact key (Heat.appends a b c d k).yields (Heat.signals a b c d k)
    | superTrend p m c => exact key (ST.makes p m c).yields (ST.signals p m c)
    | pivotPointSuperTrend p a f => exact key (PPST.makes p a f).yields (PPST.signals p a f)
    | utBot p a => exact key (UT.makes p a).yields (UT.signals p a)
    | donchian p => exact key (Donchian.appends p).yields (Donchian.signals p)
    | keltner p => exact key (Keltner.appends p).yields (Keltner.signals p)
    | boll p k => exact key (Boll.makes p k).yields (Boll.signals p k)
    | mfi p => exact key (MFI.appends p).yields (MFI.signals p)
    | vegas p a b c d => exact key (Vegas.makes p a b c d).yields (Vegas.signals p a b c d)

/-- C40, second half: no signal on the first candle. Partial: only `TraderXO` writes `Hold` there. -/
theorem C40_first_candle_partial (a b : Int) {it : Item F} {s : List Side}
    (hs : (XO a b).signals it = .ok s) (hc : it.candles ≠ []) : s[0]? = some Hold := by
  obtain ⟨x, hx⟩ := candles_tab it
  have hn : 0 < it.candles.length := List.length_pos_of_ne_nil hc
  rw [(signals_inv (XO.signals a b) hx hs).2, tab_getElem?_lt hn]
  rfl

/-- C40, second half refuted: every other strategy of the list reports `Buy` on the first candle, whatever
the candles are. -/
theorem C40_first_candle_is_buy {I : Strat F} (h : ZeroFirst I) {it : Item F}
    {s : List Side} (hs : I.signals it = .ok s) (hc : it.candles ≠ []) : s[0]? = some Buy := by
  obtain ⟨x, hx'⟩ := candles_tab it
  have hn : 0 < it.candles.length := List.length_pos_of_ne_nil hc
  have key : ∀ {ok f}, Signals I ok f → f x 0 = Buy → s[0]? = some Buy := fun hf h0 => by
    rw [(signals_inv hf hx' hs).2, tab_getElem?_lt hn, h0]
  cases h with
  | apo a b => exact key (APO.signals a b) rfl
  | awesome => exact key Awesome.signals rfl
  | chaikin a b => exact key (Chaikin.signals a b) rfl
  | ppo a b c => exact key (PPO.signals a b c) rfl
  | stoch p => exact key (Stoch.signals p) rfl
  | stochRsi a b c d => exact key (StochRSI.signals a b c d) rfl
  | williams p => exact key (Williams.signals p) rfl
  | projection a b => exact key (Projection.signals a b) rfl
  | ichimoku a b c =>
    rw [(signals_inv (Ichimoku.signals a b c) hx' hs).2, tab_getElem?_lt hn]
    have hok := (signals_inv (Ichimoku.signals a b c) hx' hs).1.1
    rw [ichiSide, if_pos (by rcases hok with h | h <;> omega)]
  | macd a b c => exact key (MACD.signals a b c) rfl
  | aiCoinCCI p => exact key (AiCCI.signals p) rfl
  | cci p q => exact key (CCIi.signals p q) rfl
  | rsi p => exact key (RSI.signals p) rfl
  | kdj p => exact key (KDJ.signals p) rfl
  | stochasticHeat a b c d k => exact key (Heat.signals a b c d k) rfl
  | superTrend p m c => exact key (ST.signals p m c) rfl
  | pivotPointSuperTrend p a f => exact key (PPST.signals p a f) rfl
  | utBot p a => exact key (UT.signals p a) rfl
  | donchian p => exact key (Donchian.signals p) rfl
  | keltner p => exact key (Keltner.signals p) rfl
  | boll p k => exact key (Boll.signals p k) rfl
  | mfi p => exact key (MFI.signals p) rfl
  | vegas p a b c d => exact key (Vegas.signals p a b c d) rfl

example : ∃ s, (RSI (F := XF ℝ) 2).signals (sample 3) = .ok s ∧ s.length = 3 ∧ s[0]? = some Buy := by
  obtain ⟨s, hs⟩ := (C40_signals_exist (.zeroFirst (.rsi 2)) (sample 3)).mpr sample_rsi
  exact ⟨s, hs, C40_one_side_per_candle (.zeroFirst (.rsi 2)) hs, C40_first_candle_is_buy (.rsi 2) hs
    (by simp [sample])⟩

example : ∃ s, (XO (F := XF ℝ) 2 3).signals (sample 3) = .ok s ∧ s[0]? = some Hold := by
  obtain ⟨x, hx⟩ := candles_tab (sample 3)
  have h := (XO.signals 2 3 _ _ x hx).1 trivial
  exact ⟨_, h, C40_first_candle_partial 2 3 h (by simp [sample])⟩

end Verif.Props
