import Verif.Ind.Signals
import Verif.Ind.Volume
import Verif.Ind.Trend3
import Verif.Ind.Smc

/-!
# The default constructors

The parameters the `NewDefault…` functions pass on, and the constructors without parameters. A definition
stands for the whole constructor: the item is the argument of `Indicator.new`; `Name` is not modelled.
-/

namespace Verif.Ind
open Verif Verif.Klines Verif.Ta GoFloat

variable {F : Type} [GoMath F]

/-- `NewDefaultKeltnerChannel` (channel/KeltnerChannel.go:47-49). -/
abbrev NewDefaultKeltnerChannel : Strat F := Keltner 20

/-- `NewDefaultBoll` (channel/Boll.go:72-74). -/
abbrev NewDefaultBoll : Strat F := Boll 20 2

/-- `NewDefaultDonchianChannel` (channel/DonchianChannel.go:46-48). -/
abbrev NewDefaultDonchianChannel : Strat F := Donchian 20

/-- `NewDefaultUlcerIndex` (channel/UlcerIndex.go:43-45). -/
abbrev NewDefaultUlcerIndex : Indicator F := Ulcer 14

/-- `NewDefaultStochRsi` (trend/StochRsi.go:44-46). -/
abbrev NewDefaultStochRsi : Strat F := StochRSI 3 3 14 14

/-- `NewDefaultTraderXO` (trend/TraderXO.go:50-52). -/
abbrev NewDefaultTraderXO : Strat F := XO 12 25

/-- `NewDefaultAiCoinCCI` (trend/AiCoinCCI.go:42-44). -/
abbrev NewDefaultAiCoinCCI : Strat F := AiCCI 20

/-- `NewDefaultVortex` (trend/Vortex.go:36-38). -/
abbrev NewDefaultVortex : Indicator F := Vortex 9

/-- `NewDefaultKdj` (trend/Kdj.go:41-43). -/
abbrev NewDefaultKdj : Strat F := KDJ 9

/-- `NewDefaultEMAVegas` (trend/EMAVegas.go:63-65). -/
abbrev NewDefaultEMAVegas : Strat F := Vegas 12 144 169 575 676

/-- `NewDefaultMacd` (trend/Macd.go:59-61). -/
abbrev NewDefaultMacd : Strat F := MACD 12 9 26

/-- `NewDefaultMa` (trend/Ma.go:35-37). -/
abbrev NewDefaultMa : Indicator F := MAi 20

/-- `NewDefaultAverageDirectionalIndex` (trend/AverageDirectionalIndex.go:58-60). -/
abbrev NewDefaultAverageDirectionalIndex : Indicator F := ADX 30 14

/-- `NewDefaultSuperTrend` (trend/SuperTrend.go:61-63). -/
abbrev NewDefaultSuperTrend : Strat F := ST 10 3 true

/-- `NewDefaultEma` (trend/Ema.go:35-37). -/
abbrev NewDefaultEma : Indicator F := EMA 5

/-- `NewDefaultSma` (trend/Sma.go:35-37). -/
abbrev NewDefaultSma : Indicator F := SMA 9

/-- `NewDefaultStochasticHeat` (trend/StochasticHeat.go:54-56). -/
abbrev NewDefaultStochasticHeat : Strat F := Heat 8 7 26 25 .wma

/-- `NewDefaultRsi` (trend/Rsi.go:35-37). -/
abbrev NewDefaultRsi : Strat F := RSI 14

/-- `NewDefaultAtr` (trend/Atr.go:37-39). -/
abbrev NewDefaultAtr : Indicator F := ATR 14

/-- `NewDefaultPivotPointSuperTrend` (trend/PivotPointSuperTrend.go:60-62). -/
abbrev NewDefaultPivotPointSuperTrend : Strat F := PPST 3 8 (lit (28/10))

/-- `NewDefaultRma` (trend/Rma.go:34-36). -/
abbrev NewDefaultRma : Indicator F := RMA 13

/-- `NewDefaultBreakoutProbability` (trend/BreakoutProbability.go:80-82). -/
abbrev NewDefaultBreakoutProbability : Indicator F := BP (lit (12/10)) 5

/-- `NewDefaultDema` (trend/Dema.go:48-50). -/
abbrev NewDefaultDema : Indicator F := DEMA 20

/-- `NewDefaultLinearRegressionCandles` (trend/LinearRegressionCandles.go:54-56). -/
abbrev NewDefaultLinearRegressionCandles : Indicator F := LRC 7 11 true

/-- `NewDefaultCci` (trend/Cci.go:65-67). -/
abbrev NewDefaultCci : Strat F := CCIi 20 20

/-- `NewDefaultUTBot` (trend/UTBot.go:52-54). -/
abbrev NewDefaultUTBot : Strat F := UT 2 1

/-- `NewDefaultChaikinOscillator` (oscillator/ChaikinOscillator.go:46-48). -/
abbrev NewDefaultChaikinOscillator : Strat F := Chaikin 3 10

/-- `NewDefaultStochasticOscillator` (oscillator/StochasticOscillator.go:45-47). -/
abbrev NewDefaultStochasticOscillator : Strat F := Stoch 14

/-- `NewDefaultIchimokuCloud` (oscillator/IchimokuCloud.go:56-58). -/
abbrev NewDefaultIchimokuCloud : Strat F := Ichimoku 20 60 120

/-- `NewDefaultProjectionOscillator` (oscillator/ProjectionOscillator.go:44-46). -/
abbrev NewDefaultProjectionOscillator : Strat F := Projection 13 3

/-- `NewDefaultPercentagePriceOscillator` (oscillator/PercentagePriceOscillator.go:50-52). -/
abbrev NewDefaultPercentagePriceOscillator : Strat F := PPO 12 26 9

/-- `NewDefaultCamarilla` (oscillator/Camarilla.go:50-52). -/
abbrev NewDefaultCamarilla : Indicator F := Camarilla 8

/-- `NewDefaultWilliamsR` (oscillator/WilliamsR.go:43-45). -/
abbrev NewDefaultWilliamsR : Strat F := Williams 14

/-- `NewDefaultVolumeOscillator` (oscillator/VolumeOscillator.go:40-42). -/
abbrev NewDefaultVolumeOscillator : Indicator F := VolOsc 5 10

/-- `NewDefaultVwma` (volume/Vwma.go:42-44). -/
abbrev NewDefaultVwma : Indicator F := VWMA 5

/-- `NewDefaultForceIndex` (volume/ForceIndex.go:39-41). -/
abbrev NewDefaultForceIndex : Indicator F := Force 13

/-- `NewDefaultMoneyFlowIndex` (volume/MoneyFlowIndex.go:46-48). -/
abbrev NewDefaultMoneyFlowIndex : Strat F := MFI 14

/-- `NewDefaultVolumePriceTrend` (volume/VolumePriceTrend.go:39-41). -/
abbrev NewDefaultVolumePriceTrend : Indicator F := VPT 14

/-- `NewDefaultAccumulationDistribution` (volume/AccumulationDistribution.go:42-44). -/
abbrev NewDefaultAccumulationDistribution : Indicator F := AD

/-- `NewDefaultEaseOfMovement` (volume/EaseOfMovement.go:43-45). -/
abbrev NewDefaultEaseOfMovement : Indicator F := EMV 14

/-- `NewDefaultChaikinMoneyFlow` (volume/ChaikinMoneyFlow.go:47-49). -/
abbrev NewDefaultChaikinMoneyFlow : Indicator F := CMF 20

/-- `NewDefaultNegativeVolumeIndex` (volume/NegativeVolumeIndex.go:41-43). -/
abbrev NewDefaultNegativeVolumeIndex : Indicator F := NVI

/-- `NewAbsolutePriceOscillator` (oscillator/AbsolutePriceOscillator.go:27-30). -/
abbrev NewAbsolutePriceOscillator : Strat F := APO 14 30

/-- `NewAwesomeOscillator` (oscillator/AwesomeOscillator.go:30-33). -/
abbrev NewAwesomeOscillator : Strat F := Awesome

/-- `NewObv` (volume/Obv.go:29-32). -/
abbrev NewObv : Indicator F := OBV

/-- `NewReversalSignals` (trend/ReversalSignals.go:33-38). -/
abbrev NewReversalSignals : Indicator F := Rev

/-- `NewDefaultSmartMoneyConcepts` (trend/SmartMoneyConcepts.go:115-117, the fields it sets in 80-91). -/
abbrev NewDefaultSmartMoneyConcepts : Smc.Cfg := Smc.Cfg.default

end Verif.Ind
