import Verif.Ind.Trend3
import Mathlib.Data.Rat.Floor
import Mathlib.Data.Nat.Digits.Defs

/-!
# Names of indicators and strategies

Every constructor gives its object a `Name`, and `AnalysisSide` returns the signals under this name (`SideData.Name`).
Names are lists of characters here.
-/

namespace Verif.Ind

variable {F : Type}

/-- The decimal digits of a natural number as `fmt`'s `%d` prints them. -/
def decN (n : Nat) : List Char := if n = 0 then ['0'] else (Nat.digits 10 n).reverse.map Nat.digitChar

/-- `fmt`'s `%d` of an `int`. -/
def dec : Int → List Char
  | .ofNat n => decN n
  | .negSucc n => '-' :: decN (n + 1)

/-- What `fmt.Sprintf("%d-%d-…", …)` prints: the numbers with a dash between them. -/
def dashed : List Int → List Char
  | [] => []
  | [a] => dec a
  | a :: b :: t => dec a ++ '-' :: dashed (b :: t)

/-- A call of a constructor `New…` other than `NewDefault…`, the candles left out. The `…OHLC` constructors give the same names
as those that take an item. -/
inductive Maker (F : Type) where
  /-- channel/KeltnerChannel.go:37-44. -/
  | keltner (period : Int)
  /-- channel/Boll.go:67-69. -/
  | boll (periodN periodK : Int)
  /-- channel/DonchianChannel.go:36-43. -/
  | donchian (period : Int)
  /-- channel/UlcerIndex.go:33-40. -/
  | ulcer (period : Int)
  /-- trend/StochRsi.go:32-42. -/
  | stochRsi (smoothK smoothD rsiLength stochLength : Int)
  /-- trend/TraderXO.go:28-47. -/
  | traderXO (fast slow : Int)
  /-- trend/Vortex.go:26-33. -/
  | vortex (period : Int)
  /-- trend/Kdj.go:31-38. -/
  | kdj (period : Int)
  /-- trend/Macd.go:47-56. -/
  | macd (short signal long : Int)
  /-- trend/Ma.go:25-32. -/
  | ma (period : Int)
  /-- trend/AverageDirectionalIndex.go:36-55. -/
  | adx (period length : Int)
  /-- trend/Ema.go:25-32. -/
  | ema (period : Int)
  /-- trend/Sma.go:25-32. -/
  | sma (period : Int)
  /-- trend/Rsi.go:26-33. -/
  | rsi (period : Int)
  /-- trend/Atr.go:27-34. -/
  | atr (period : Int)
  /-- trend/ReversalSignals.go:33-39. -/
  | reversal
  /-- trend/SmartMoneyConcepts.go:80-112. -/
  | smc (swing confirmation threshold : Int)
  /-- trend/Rma.go:25-32. -/
  | rma (period : Int)
  /-- trend/Dema.go:28-45. -/
  | dema (period : Int)
  /-- oscillator/AbsolutePriceOscillator.go:28-31. -/
  | apo
  /-- oscillator/ChaikinOscillator.go:35-43. -/
  | chaikin (fast slow : Int)
  /-- oscillator/StochasticOscillator.go:35-42. -/
  | stoch (period : Int)
  /-- oscillator/IchimokuCloud.go:44-53. -/
  | ichimoku (conversion spanB lagging : Int)
  /-- oscillator/ProjectionOscillator.go:33-41. -/
  | projection (period smooth : Int)
  /-- oscillator/AwesomeOscillator.go:30-33. -/
  | awesome
  /-- oscillator/PercentagePriceOscillator.go:38-47. -/
  | ppo (fast slow signal : Int)
  /-- oscillator/WilliamsR.go:33-40. -/
  | williams (period : Int)
  /-- oscillator/VolumeOscillator.go:29-37. -/
  | volOsc (short long : Int)
  /-- volume/Vwma.go:32-39. -/
  | vwma (period : Int)
  /-- volume/ForceIndex.go:29-36. -/
  | force (period : Int)
  /-- volume/MoneyFlowIndex.go:36-43. -/
  | mfi (period : Int)
  /-- volume/VolumePriceTrend.go:29-36. -/
  | vpt (period : Int)
  /-- volume/Obv.go:29-32. -/
  | obv
  /-- volume/AccumulationDistribution.go:33-39. -/
  | ad
  /-- volume/EaseOfMovement.go:33-40. -/
  | emv (period : Int)
  /-- volume/ChaikinMoneyFlow.go:37-44. -/
  | cmf (period : Int)
  /-- volume/NegativeVolumeIndex.go:32-38. -/
  | nvi
  /-- trend/AiCoinCCI.go:31-38. -/
  | aiCci (period : Int)
  /-- trend/Cci.go:53-62. -/
  | cci (period smaPeriod : Int)
  /-- oscillator/Camarilla.go:40-47. -/
  | camarilla (emaPeriod : Int)
  /-- trend/StochasticHeat.go:41-52; `ma` is the number of the `MATypes` constant. -/
  | heat (inc smoothFast smoothSlow plotNum : Int) (ma : UInt32)
  /-- trend/EMAVegas.go:35-60. -/
  | vegas (period short1 short2 long1 long2 : Int)
  /-- trend/SuperTrend.go:36-58. -/
  | superTrend (atrPeriod atrMultiplier : Int) (changeAtr : Bool)
  /-- trend/UTBot.go:30-49. -/
  | utBot (period atrPeriod : Int)
  /-- trend/LinearRegressionCandles.go:31-51. -/
  | lrc (smoothing length : Int) (smaSignal : Bool)
  /-- trend/PivotPointSuperTrend.go:36-57. -/
  | pivotTrend (period atrPeriod : Int) (factor : F)
  /-- trend/BreakoutProbability.go:40-77. -/
  | breakout (step : F) (lines : Int)

/-- The `Name` the constructor stores. Models the `fmt.Sprintf` calls in the constructors cited at `Maker`; `fixed k` is `fmt`'s
`%.kf` (`%f` is `%.6f`). -/
def name (fixed : Nat → F → List Char) : Maker F → List Char
  | .keltner period => "KeltnerChannel".toList ++ dashed [period]
  | .boll periodN periodK => "Boll".toList ++ dashed [periodN, periodK]
  | .donchian period => "DonchianChannel".toList ++ dashed [period]
  | .ulcer period => "UlcerIndex".toList ++ dashed [period]
  | .stochRsi smoothK smoothD rsiLength stochLength => "StochRsi".toList ++ dashed [smoothK, smoothD, rsiLength, stochLength]
  | .traderXO fast slow => "TraderXO".toList ++ dashed [fast, slow]
  | .vortex period => "Vortex".toList ++ dashed [period]
  | .kdj period => "Kdj".toList ++ dashed [period]
  | .macd short signal long => "Macd".toList ++ dashed [short, signal, long]
  | .ma period => "Ma".toList ++ dashed [period]
  | .adx period length => "AverageDirectionalIndex".toList ++ dashed [period, length]
  | .ema period => "Ema".toList ++ dashed [period]
  | .sma period => "Sma".toList ++ dashed [period]
  | .rsi period => "Rsi".toList ++ dashed [period]
  | .atr period => "Atr".toList ++ dashed [period]
  | .reversal => "ReversalSignals".toList
  | .smc swing confirmation threshold => "SmartMoneyConcepts".toList ++ dashed [swing, confirmation, threshold]
  | .rma period => "Rma".toList ++ dashed [period]
  | .dema period => "Dema".toList ++ dashed [period]
  | .apo => "AbsolutePriceOscillator".toList
  | .chaikin fast slow => "ChaikinOscillator".toList ++ dashed [fast, slow]
  | .stoch period => "StochasticOscillator".toList ++ dashed [period]
  | .ichimoku conversion spanB lagging => "IchimokuCloud".toList ++ dashed [conversion, spanB, lagging]
  | .projection period smooth => "ProjectionOscillator".toList ++ dashed [period, smooth]
  | .awesome => "AwesomeOscillator".toList
  | .ppo fast slow signal => "PercentagePriceOscillator".toList ++ dashed [fast, slow, signal]
  | .williams period => "WilliamsR".toList ++ dashed [period]
  | .volOsc short long => "VolumeOscillator".toList ++ dashed [short, long]
  | .vwma period => "Vwma".toList ++ dashed [period]
  | .force period => "ForceIndex".toList ++ dashed [period]
  | .mfi period => "MoneyFlowIndex".toList ++ dashed [period]
  | .vpt period => "VolumePriceTrend".toList ++ dashed [period]
  | .obv => "Obv".toList
  | .ad => "AccumulationDistribution".toList
  | .emv period => "EaseOfMovement".toList ++ dashed [period]
  | .cmf period => "ChaikinMoneyFlow".toList ++ dashed [period]
  | .nvi => "NegativeVolumeIndex".toList
  | .aiCci period => "AiCoinCCI".toList ++ '-' :: dec period
  | .cci period smaPeriod => "CCI".toList ++ (dec period ++ '-' :: 'S' :: 'M' :: 'A' :: dec smaPeriod)
  | .camarilla emaPeriod => "Camarilla".toList ++ '-' :: dec emaPeriod
  | .heat inc smoothFast smoothSlow plotNum ma =>
    "StochasticHeat".toList ++ dashed [inc, smoothFast, smoothSlow, plotNum, ma.toNat]
  | .vegas _ short1 short2 long1 long2 => "EMAVegas".toList ++ dashed [short1, short2, long1, long2]
  | .superTrend atrPeriod atrMultiplier _ => "SuperTrend".toList ++ dashed [atrPeriod, atrMultiplier]
  | .utBot period _ => "UTBot".toList ++ dashed [period]
  | .lrc smoothing length _ => "LinearRegressionCandles".toList ++ dashed [smoothing, length]
  | .pivotTrend period atrPeriod factor =>
    "PivotPointSuperTrend".toList ++ (dec period ++ '-' :: (dec atrPeriod ++ '-' :: fixed 6 factor))
  | .breakout step lines => "BreakoutProbability".toList ++ (fixed 2 step ++ '-' :: dec (BP.clamp lines))

/-- `strconv.FormatFloat(x, 'f', k, 64)` of a finite number: the nearest multiple of `10^-k`, ties to even, with `k` decimals.
Negative numbers that round to 0 keep their sign, as in Go. Simplified: the zero with a sign has none here. -/
def fixedQ (k : Nat) (q : Rat) : List Char :=
  let s := |q| * 10 ^ k
  let f := s.floor.toNat
  let m := if s - f < 1 / 2 then f else if 1 / 2 < s - f then f + 1 else if f % 2 = 0 then f else f + 1
  let frac := decN (m % 10 ^ k)
  (if q < 0 then ['-'] else []) ++ decN (m / 10 ^ k) ++
    if k = 0 then [] else '.' :: (List.replicate (k - frac.length) '0' ++ frac)

end Verif.Ind
