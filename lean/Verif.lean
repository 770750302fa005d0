import Verif.Go.Basic
import Verif.Go.Num
import Verif.Go.Binary64
import Verif.Go.Real
import Verif.Spec
import Verif.Container.Bst
import Verif.Container.Queue
import Verif.Ta.Window
import Verif.Ta.Elem
import Verif.Ta.Avg
import Verif.Ta.Roll
import Verif.Ta.Misc
import Verif.Ta.Exact
import Verif.Props.Containers
import Verif.Props.TaAvg
import Verif.Props.TaReg
import Verif.Props.TaElem
import Verif.Props.TaPivot
import Verif.Klines.Types
import Verif.Klines.Tech
import Verif.Klines.Heap
import Verif.Klines.Ranges
import Verif.Props.KlineTech
import Verif.Props.KlineHeap
import Verif.Props.KlineRanges
import Verif.Klines.Convert
import Verif.Props.KlineConvert
import Verif.Conc.Net
import Verif.Conc.Helper
import Verif.Props.Channels
import Verif.Props.ChannelsMany
import Verif.Ind.Core
import Verif.Ind.Params
import Verif.Ind.Volume
import Verif.Ind.Osc
import Verif.Ind.Trend
import Verif.Ind.Trend2
import Verif.Ind.Trend3
import Verif.Ind.Channel
import Verif.Ind.Signals
import Verif.Ind.Live
import Verif.Props.Indicators
import Verif.Props.Crossing
import Verif.Props.Bars
import Verif.Props.Percent
import Verif.Props.Bands
import Verif.Props.Lines
import Verif.Props.Trailing
import Verif.Props.Small
import Verif.Props.Breakout
import Verif.Props.Camarilla
import Verif.Props.Directional
import Verif.Ind.Scale
import Verif.Props.Scale
import Verif.Ind.Smc
import Verif.Ind.SmcInv
import Verif.Ind.SmcRun
import Verif.Props.Smc
import Verif.Props.SmcSeries
import Verif.Props.SmcWit
import Verif.Klines.Padding
import Verif.Props.KlinePad
import Verif.Ind.Defaults
import Verif.Ind.Names
import Verif.Props.Answers
import Verif.Ind.Values
import Verif.Props.Values
import Verif.Props.Reversal
import Verif.Props.VolumeLines
import Verif.Props.EmaLines
import Verif.Props.WindowLines
import Verif.Props.Projection
import Verif.Props.Thresholds
import Verif.Props.CamarillaSides
import Verif.Props.Chandelier
import Verif.Props.TaMisc
import Verif.Props.Lifecycle
import Verif.Props.TreePtr
import Verif.Props.F64Base
import Verif.Props.F64Percent
import Verif.Props.F64Sums
import Verif.Props.F64Lines
import Verif.Props.F64Mono
import Verif.Props.F64Volume
import Verif.Go.Math64
import Verif.Go.Ieee
import Verif.Props.F64Math
import Verif.Ind.Main
import Verif.Props.MainTable
import Verif.Go.Nan
import Verif.Props.BadTick
import Verif.Container.Dyn
import Verif.Props.DynTree
import Verif.Ind.Columns
import Verif.Props.Columns
import Verif.Props.Forget
import Verif.Props.Fade
import Verif.Props.Mirror
import Verif.Props.Shift
import Verif.Props.Names
import Verif.Props.F64Signs
import Verif.Props.F64Stops
import Verif.Go.Fused
import Verif.Props.Fused
import Verif.Props.FusedRange
import Verif.Props.Inputs
import Verif.Go.Float53
import Verif.Go.Sqrt53
import Verif.Props.Units53
import Verif.Go.Decimal
import Verif.Props.Decimal
import Verif.Klines.Ranges64
import Verif.Props.Ranges64
import Verif.Props.Still
import Verif.Props.StillSides
import Verif.Klines.Convert64
import Verif.Props.Convert64
import Verif.Props.StillAny
import Verif.Props.Tick
import Verif.Props.TickLines
import Verif.Props.TickVol
import Verif.Props.TickSides
import Verif.Props.TickMore
import Verif.Props.TickRefuted
import Verif.Props.Same
import Verif.Props.ZeroCandle
import Verif.Props.Stable
import Verif.Props.StableMore
import Verif.Props.Coarse
import Verif.Props.StableSides
import Verif.Props.Clean
import Verif.Props.HeikinAshi
import Verif.Props.Rising
import Verif.Props.Live
import Verif.Props.Nesting
import Verif.Props.KlineAlias
import Verif.Props.Feed
import Verif.Props.F64Near
import Verif.Props.F64Track
import Verif.Props.RecAlias
import Verif.Props.IntervalName
import Verif.Props.F64Wilder
import Verif.Props.F64StopTrack
import Verif.Klines.CandleText
import Verif.Props.NumberText
import Verif.Props.CandleText
import Verif.Ind.SmcUnits
import Verif.Props.SmcUnits
import Verif.Ind.SmcLater
import Verif.Props.SmcLater
import Verif.Props.TextOrder
import Verif.Props.PadAgain
import Verif.Props.PadCoarse
import Verif.Props.CoarseTwice
import Verif.Props.CoarseParts
import Verif.Props.CoarseStart
import Verif.Props.CoarseEmpty
