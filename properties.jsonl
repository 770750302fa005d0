{"id": "C01", "title": "Search tree behaves as a multiset", "statement": "After any sequence of Insert, Inserts and Remove calls on a new tree, the tree holds exactly the multiset obtained by adding each inserted value once and dropping one occurrence per successful Remove; Remove returns true exactly when an equal value is present; Min and Max return a smallest and a largest stored value, or nil exactly when the tree is empty.", "quantifier": "every finite sequence of operations over values that are totally ordered by < (any float64 except NaN, or int64), including duplicates and removal of nodes with two children", "why_tests_cant": "The tree shape depends on the whole operation history; tests exercise a handful of shapes, the two-children removal with duplicates has unboundedly many.", "anchors": ["container/bst/bst.go:Insert,Inserts,Remove,removeNode,Min,Max,minNode,maxNode", "container/comparable.go:Compare,compareFloat64"]}
{"id": "C02", "title": "Sliding maximum and minimum are the true window extremes", "statement": "For every period >= 1, Max(period, values)[i] is an element of values[max(0,i-period+1)..i] that is >= every element of that window, and Min the dual; the result has the length of values. With period 0 the call panics iff values is non-empty, and with a negative period it always panics.", "quantifier": "all periods (positive, zero, negative), all series lengths and all NaN-free values, with repeated values", "why_tests_cant": "The result at i is produced by a ring buffer plus a mutable search tree whose state depends on the whole prefix.", "anchors": ["utils/ta/ta.go:Max,Min", "container/bst/bst.go"]}
{"id": "C03", "title": "Queue is first in first out", "statement": "For every sequence of Enqueue and Dequeue on a new queue, the values dequeued are, in order, a prefix of the values enqueued; Empty is true iff everything enqueued has been dequeued; Dequeue panics iff the queue is empty.", "quantifier": "every interleaving of Enqueue, Dequeue and Empty calls of any length", "why_tests_cant": "A statement about all operation histories.", "anchors": ["container/queue/queue.go:New,Enqueue,Dequeue,Empty"]}
{"id": "C04", "title": "Slice to channel and back is the identity under every schedule", "statement": "Chan2Slice(Slice2Chan(xs)) returns a slice equal to xs, never deadlocks or panics, and no goroutine is left running, whatever order the scheduler runs the goroutines in.", "quantifier": "all slices xs and all goroutine interleavings", "why_tests_cant": "The Go scheduler is free to pick any interleaving; a test sees one per run.", "anchors": ["helpertools/Slice2Chan.go:Slice2Chan", "helpertools/Chan2Slice.go:Chan2Slice"]}
{"id": "C05", "title": "Stream combinators compute their list meaning under every schedule", "statement": "Fed from Slice2Chan(xs) and drained by Chan2Slice, Apply(f) yields map f xs, Shift(n,fill) yields n copies of fill followed by xs, Skip(n) yields xs without its first n elements, RoundDigits yields the rounded list, and Operate(o) on two sources yields zipWith o truncated to the shorter input; every run terminates with all goroutines finished and no send on a closed channel.", "quantifier": "all input slices, all functions f and o, all counts n >= 0, all interleavings", "why_tests_cant": "Termination, absence of deadlock and determinism range over all schedules and over unequal input lengths.", "anchors": ["helpertools/Apply.go", "helpertools/Shift.go", "helpertools/Skip.go", "helpertools/Operate.go", "helpertools/Pipe.go", "helpertools/Drain.go", "helpertools/RoundDigits.go"]}
{"id": "C06", "title": "Streaming SMA is schedule independent and equals the list formula", "statement": "SmaT(period, Slice2Chan(xs)) drained by Chan2Slice always terminates and yields a slice of the length of xs whose i-th element is (sum of the last min(period,i+1) elements)/period, whatever the interleaving of its four goroutines; no goroutine leaks.", "quantifier": "all periods >= 1, all slices and all interleavings of source, Duplicate, Shift, Operate and Apply goroutines", "why_tests_cant": "Duplicate sends to its outputs one after another over unbuffered channels, so whether the pipeline can deadlock is a property of all schedules.", "anchors": ["utils/ta/ta.go:SmaT", "helpertools/Duplicate.go", "helpertools/Shift.go", "helpertools/Operate.go", "helpertools/Apply.go"]}
{"id": "C07", "title": "Duplicate outputs consumed one after the other", "statement": "Every output of Duplicate delivers the whole input, so draining the outputs one after another yields count copies of the input.", "quantifier": "all inputs, counts and interleavings", "why_tests_cant": "Whether the consumer order can deadlock is a statement about all executions.", "anchors": ["helpertools/Duplicate.go:Duplicate"]}
{"id": "C08", "title": "CheckEquals is equality of streams", "statement": "CheckEquals of an odd number of channels returns an error; of one pair it returns nil iff the two channels deliver equal sequences; of several pairs it returns nil iff every pair does.", "quantifier": "all numbers of channels and all finite streams on them", "why_tests_cant": "Ranges over all stream lengths and contents, in particular over which pair ends first.", "anchors": ["helpertools/CheckEquals.go:CheckEquals"]}
{"id": "C09", "title": "RemoveOutsideRange is exactly the interval filter", "statement": "After RemoveOutsideRange(start,end) the candles are exactly those with start <= time < end (plus candles at start when end <= start), in their original order; a second call with the same arguments changes nothing.", "quantifier": "all candle lists (unsorted, duplicated times) and all start/end instants", "why_tests_cant": "In-place filtering correctness over all lists and all boundary instants.", "anchors": ["utils/klines/kline.go:RemoveOutsideRange"]}
{"id": "C10", "title": "RemoveOutsideRangeCopy never changes the original", "statement": "RemoveOutsideRangeCopy returns an item whose candles are field-by-field copies of the filtered ones, and neither the call nor any later write through the returned candles changes what the original item shows.", "quantifier": "all items, all ranges, and all later writes through the copy", "why_tests_cant": "Aliasing freedom quantifies over every later mutation.", "anchors": ["utils/klines/kline.go:RemoveOutsideRangeCopy,RemoveOutsideRange"]}
{"id": "C11", "title": "RemoveDuplicates keeps the first candle per timestamp", "statement": "After RemoveDuplicates no two candles share a timestamp, every timestamp present before is still present, the candle kept is the first one with that timestamp, order is preserved, and a second call changes nothing.", "quantifier": "all candle lists", "why_tests_cant": "A statement over all lists and all repetition patterns.", "anchors": ["utils/klines/kline.go:RemoveDuplicates"]}
{"id": "C12", "title": "Sorting candles by timestamp", "statement": "SortCandlesByTimestamp keeps exactly the same candles and leaves them ordered by time: ascending for desc=false and descending for desc=true.", "quantifier": "all candle lists, both flag values, every unstable ordering sort.Slice may pick among equal timestamps", "why_tests_cant": "sort.Slice may return any ordered permutation; the claim is about all of them.", "anchors": ["utils/klines/kline.go:SortCandlesByTimestamp"]}
{"id": "C13", "title": "Date ranges tile the requested window", "statement": "When CalculateCandleDateRanges succeeds, the intervals of all ranges, concatenated, are contiguous steps of the interval length from the rounded start to the returned end with no gap and no overlap, each range starts where the previous ended and holds at most Limit intervals, and their number is the number of whole intervals between rounded start and end.", "quantifier": "all start/end instants, all positive intervals and all limits including 0", "why_tests_cant": "A partition property over unbounded window sizes and limits, with off-by-one risk at multiples of the limit.", "anchors": ["utils/klines/kline.go:CalculateCandleDateRanges,CreateIntervalTime", "utils/commonutils/common.go:StartEndTimeCheck"]}
{"id": "C14", "title": "Freshly computed ranges report no data and never lose an instant", "statement": "HasDataAtDate on a holder returned by CalculateCandleDateRanges is false for every instant until some interval is marked, and when an interval is marked it is true exactly for the instants inside that interval.", "quantifier": "all holders, all instants and all sets of marked intervals", "why_tests_cant": "Quantifies over all instants and all marking histories.", "anchors": ["utils/klines/kline.go:HasDataAtDate,CalculateCandleDateRanges"]}
{"id": "C15", "title": "Upscaling candles conserves the market data", "statement": "ConvertToNewInterval on a gap-free series aligned to the new interval returns one candle per complete bucket whose open is the first open, close the last close, high the maximum high, low the minimum low and volume the sum of volumes of exactly that bucket; trailing candles that do not fill a bucket are ignored.", "quantifier": "all positive intervals with whole-number ratio, all series lengths including ones that leave trailing candles, all positive prices", "why_tests_cant": "The loop carries a bucket cursor across the whole series; correctness at every bucket boundary and for every leftover length is universal.", "anchors": ["utils/klines/kline.go:ConvertToNewInterval"]}
{"id": "C16", "title": "Upscaling reports bad requests as errors", "statement": "ConvertToNewInterval returns an error (never a wrong result, never a panic) when the item is nil, an interval is not positive, the new interval is not a strictly larger whole multiple of the old one, the series has gaps, or there are too few candles.", "quantifier": "all items, including empty ones, and all interval pairs", "why_tests_cant": "Exhaustive classification of the error space, including the empty and the zero-time series.", "anchors": ["utils/klines/kline.go:ConvertToNewInterval"]}
{"id": "C17", "title": "Heikin-Ashi candles are well formed", "statement": "ToHeikinAshi returns one candle per input candle with the same timestamp; close is the average of the four raw prices, open the midpoint of a previous candle body, and low <= open, close <= high for well-formed input candles.", "quantifier": "all series of well-formed candles", "why_tests_cant": "A range property for all prices.", "anchors": ["utils/klines/technical_analysis.go:ToHeikinAshi"]}
{"id": "C18", "title": "OHLC columns stay aligned with the candles", "statement": "GetOHLC returns seven columns of the same length as the candle list, and row i of the columns is candle i; HL2, HLC3 and OHLC4 return the per-candle averages and lie between low and high for well-formed candles.", "quantifier": "all candle lists", "why_tests_cant": "All list lengths and prices.", "anchors": ["utils/klines/technical_analysis.go:GetOHLC,HL2,HLC3,OHLC4"]}
{"id": "C19", "title": "Simple moving average equals the window mean", "statement": "In exact arithmetic, for period >= 1, Sma(period, values)[i] is the arithmetic mean of values[max(0,i-period+1)..i] and the output has the input length; Sma with period 0 is all zeros and with a negative period panics for every non-empty input.", "quantifier": "all periods and all finite series", "why_tests_cant": "The rolling update must equal the direct window formula at every index for every period.", "anchors": ["utils/ta/ta.go:Sma"]}
{"id": "C20", "title": "Rolling sum equals the window sum", "statement": "In exact arithmetic Sum(period, values)[i] is the sum of the last min(period,i+1) values up to i.", "quantifier": "all periods >= 0 and all finite series", "why_tests_cant": "Rolling update versus direct formula at every index.", "anchors": ["utils/ta/ta.go:Sum"]}
{"id": "C21", "title": "Weighted moving average equals its weighted window formula", "statement": "In exact arithmetic, for period >= 1 and a series of at least period-1 values, Wma(period, values)[i] is sum(k*values[i-period+k], k=1..period)/(period*(period+1)/2) for i >= period-1 and 0 before; on shorter series the call panics.", "quantifier": "all periods and series lengths", "why_tests_cant": "Two coupled running sums must stay in step for every index; the panic boundary depends on length and period.", "anchors": ["utils/ta/ta.go:Wma"]}
{"id": "C22", "title": "Variance is the population variance of the window and never negative", "statement": "In exact arithmetic, for period >= 1 and len(values) >= period, Variance(values, period)[i] is the population variance of the window ending at i (hence >= 0) for i >= period-1 and 0 before, and StdDev is its square root times the deviation factor (0 below the 1e-14 threshold); on shorter series the call panics.", "quantifier": "all periods, series and deviation factors", "why_tests_cant": "Rolling sums of squares must equal the window definition for all inputs; non-negativity is an inequality over all reals.", "anchors": ["utils/ta/ta.go:Variance,StdDev"]}
{"id": "C23", "title": "Linear regression is the least-squares line of the window", "statement": "In exact arithmetic, for period >= 2 and i >= period-1, LinearRegSlope, LinearRegIntercept and LinearReg return slope, intercept and end-point value of the unique line minimising the squared error over the window ending at i; no other line has a smaller squared error.", "quantifier": "all periods >= 2, all series, all competing lines", "why_tests_cant": "Optimality against every line is a universal inequality; the rolling sums must match at every index.", "anchors": ["utils/ta/ta.go:LinearReg,LinearRegSlope,LinearRegIntercept,LinearRegAngle"]}
{"id": "C24", "title": "Least-squares helpers minimise the squared error", "statement": "In exact arithmetic LeastSquare(x,y) with at least two distinct x values returns the line with minimal squared error, MovingLeastSquare returns at each i the least-squares line of the last min(period,i+1) points whenever that window has two distinct x values, and the regression helpers evaluate these lines at x.", "quantifier": "all point sets, periods >= 1 and competing lines", "why_tests_cant": "Optimality is universal over lines and data.", "anchors": ["utils/regression.go:LeastSquare,MovingLeastSquare,LinearRegressionUsingLeastSquare,MovingLinearRegressionUsingLeastSquare"]}
{"id": "C25", "title": "Exponential average stays inside the range of the data", "statement": "In exact arithmetic, for period >= 1, every Ema value lies between the minimum and the maximum of the values seen so far, a constant series is reproduced, and Ema is linear in the series; with period -1 the divisor is zero.", "quantifier": "all periods >= 1, all finite series, all scalings", "why_tests_cant": "An induction over the whole series.", "anchors": ["utils/ta/ta.go:Ema,Dema"]}
{"id": "C26", "title": "Rolling (Wilder) average", "statement": "Rma(period, values)[i] is the mean of the first i+1 values for i < period and (Rma[i-1]*(period-1)+values[i])/period after, as documented.", "quantifier": "all periods >= 1 and series", "why_tests_cant": "Recurrence over the whole history.", "anchors": ["utils/ta/ta.go:Rma"]}
{"id": "C27", "title": "True range dominates every price move", "statement": "TRange and TrueRange return 0 at index 0 and at i >= 1 the maximum of high-low, |prevClose-high| and |prevClose-low|, which is >= 0 and at least the distance between any two points of the candle and the previous close; both functions agree.", "quantifier": "all series of candles with high >= low", "why_tests_cant": "Universal inequality over prices.", "anchors": ["utils/ta/ta.go:TRange,TrueRange"]}
{"id": "C28", "title": "Average true range is a non-negative Wilder average with an exact panic boundary", "statement": "For period >= 2 Atr panics iff the series has at most period candles; otherwise entries before index period are 0, and from period on each entry is ((period-1)*previous + TR)/period, hence non-negative and never larger than the largest true range so far.", "quantifier": "all periods and all candle series", "why_tests_cant": "Panic boundary and bounds for every length and price history.", "anchors": ["utils/ta/ta.go:Atr,Natr,TRange,Rma"]}
{"id": "C29", "title": "Element-wise helpers never index out of range and never leak NaN from Divide", "statement": "Divide returns only finite values for every input including zero denominators, NaN and infinities; Add, Subtract, Multiply and Divide panic iff the second slice is shorter than the first and otherwise return the element-wise result of the length of the first.", "quantifier": "all pairs of slices of any lengths with arbitrary float64 content", "why_tests_cant": "Special-value behaviour over all combinations and lengths.", "anchors": ["utils/ta/ta.go:Add,Subtract,Multiply,Divide,MultiplyBy,DivideBy,AddBy"]}
{"id": "C30", "title": "Shifting and differencing", "statement": "ShiftRight(p, xs)[i] is 0 for i < p and xs[i-p] otherwise, Diff(xs,p)[i] = xs[i] - ShiftRight(p,xs)[i], and PercentDiff(xs,p)[i] is the relative change over p steps and 0 for i < p; a negative shift panics for every non-empty series.", "quantifier": "all series and shifts", "why_tests_cant": "All lengths and shifts, including shifts larger than the series and negative ones.", "anchors": ["utils/ta/ta.go:ShiftRight,ShiftRightAndFillBy,Diff,PercentDiff"]}
{"id": "C31", "title": "Positive and negative parts recombine", "statement": "KeepPositives(xs) and KeepNegatives(xs) are >= 0 and <= 0 respectively and add up to xs; ExtractSign is +1 for values >= 0 and -1 otherwise, so ExtractSign * Abs = xs.", "quantifier": "all NaN-free series", "why_tests_cant": "Universal over values.", "anchors": ["utils/ta/ta.go:KeepPositives,KeepNegatives,ExtractSign,Abs"]}
{"id": "C32", "title": "Pivot detection reports exactly the window extremes", "statement": "PivotHigh(values,left,right)[i] equals values[i-right] when that value is a maximum of values[i-right-left..i], and 0 otherwise; PivotLow is the dual; a pivot is only ever reported right bars after it happened.", "quantifier": "all series, all left,right >= 0", "why_tests_cant": "Window property at every index for every left/right.", "anchors": ["utils/ta/ta.go:PivotHigh,PivotLow"]}
{"id": "C33", "title": "Highest and Lowest of the last n values", "statement": "Highest(values,n) and Lowest(values,n) return the maximum and minimum of the last min(n,len) values for n >= 1, and panic iff values is empty.", "quantifier": "all series and n", "why_tests_cant": "All lengths and n.", "anchors": ["utils/ta/ta.go:Highest,Lowest"]}
{"id": "C34", "title": "Neighbourhood extreme search", "statement": "PivotMax(values,index,left,right) returns the largest value within left positions before and right positions after index together with a position holding it; PivotMin returns the smallest.", "quantifier": "all series (including negative values), valid indices and widths", "why_tests_cant": "The answer depends on ties between both sides and on the sign of the data.", "anchors": ["utils/ta/ta.go:PivotMax,PivotMin"]}
{"id": "C35", "title": "Cross detection is exclusive", "statement": "CrossOver and CrossUnder are never both true, CrossOver is true iff the last value is above and the one before is below the level, and they panic only on an empty slice or on a single value already past the level.", "quantifier": "all series and levels including NaN", "why_tests_cant": "All float values.", "anchors": ["utils/ta/ta.go:CrossOver,CrossUnder"]}
{"id": "C36", "title": "Indicators never look ahead", "statement": "For every indicator in a fixed list, computing it on a longer candle series leaves the values already produced for the earlier candles unchanged: the data of the first n candles equals the data computed from those n candles alone.", "quantifier": "all candle series, all continuations, all indicator parameters for which both computations succeed", "why_tests_cant": "Non-repainting is a relation between infinitely many pairs of runs.", "anchors": ["utils/ta/ta.go", "trend/", "channel/", "oscillator/", "volume/"]}
{"id": "C37", "title": "Indicator output is aligned with the candles", "statement": "GetData returns exactly one record per candle, and record i carries the timestamp of candle i.", "quantifier": "all candle series and parameters, all indicators of the library", "why_tests_cant": "All lengths, including 0 and lengths below the period.", "anchors": ["trend/", "channel/", "oscillator/", "volume/"]}
{"id": "C38", "title": "GetData is idempotent", "statement": "Calling GetData, AnalysisSide or GetValues any number of times in any order returns the same result every time.", "quantifier": "all histories of read calls on an indicator object", "why_tests_cant": "Quantifies over call histories on a caching object.", "anchors": ["trend/", "channel/", "oscillator/", "volume/"]}
{"id": "C39", "title": "Recalculation does not change the data", "statement": "Calling Calculation again on an indicator leaves GetData unchanged.", "quantifier": "all indicators and all numbers of Calculation calls", "why_tests_cant": "Call histories.", "anchors": ["trend/", "channel/", "oscillator/", "volume/"]}
{"id": "C40", "title": "Signals are aligned with the candles", "statement": "AnalysisSide returns exactly one side per candle; no signal is emitted on the first candle, where no comparison with a previous candle exists.", "quantifier": "all candle series and all strategies", "why_tests_cant": "All lengths.", "anchors": ["trend/", "channel/", "oscillator/", "volume/", "utils/Side.go"]}
{"id": "C41", "title": "Crossing strategies signal exactly at crossings", "statement": "For the two-line and zero-line strategies a candle i >= 1 is Buy iff the line was strictly below at i-1 and strictly above at i, Sell iff the reverse, and Hold otherwise; it is never both.", "quantifier": "all indicator data, including NaN values", "why_tests_cant": "All value combinations at every index.", "anchors": ["trend/Macd.go:AnalysisSide", "oscillator/AbsolutePriceOscillator.go:AnalysisSide", "oscillator/AwesomeOscillator.go:AnalysisSide", "oscillator/ChaikinOscillator.go:AnalysisSide", "oscillator/PercentagePriceOscillator.go:AnalysisSide", "oscillator/StochasticOscillator.go:AnalysisSide"]}
{"id": "C42", "title": "Buy and sell signals alternate", "statement": "In the signals of a crossing strategy, between two Buy signals (after the first candle) there is a Sell signal and vice versa.", "quantifier": "all data series", "why_tests_cant": "A temporal property over all histories, sensitive to values that touch the line exactly.", "anchors": ["oscillator/AbsolutePriceOscillator.go:AnalysisSide", "trend/Macd.go:AnalysisSide"]}
{"id": "C43", "title": "RSI is a percentage", "statement": "Rsi values lie in [0,100]; they are 100 after a window without losses and the computation panics only in a precisely known case.", "quantifier": "all periods and close series", "why_tests_cant": "Inequality over all price histories plus panic boundary over all lengths.", "anchors": ["trend/Rsi.go:Calculation"]}
{"id": "C44", "title": "Stochastic oscillators are percentages", "statement": "For candles with low <= close <= high, the stochastic K and D of Stochastic and StochasticOscillator lie in [0,100] and Williams %R lies in [-100,0] whenever the window range is non-zero.", "quantifier": "all periods >= 1 and all well-formed candle series", "why_tests_cant": "Inequality over all histories.", "anchors": ["utils/ta/ta.go:Stochastic", "oscillator/StochasticOscillator.go", "oscillator/WilliamsR.go"]}
{"id": "C45", "title": "KDJ lines stay in range", "statement": "For well-formed candles RSV, K and D lie in [0,100] and J = 3K-2D lies in [-200,300]; before the window is full K = D = 50 and RSV = 0.", "quantifier": "all periods >= 2 and all well-formed series", "why_tests_cant": "Recurrence over the whole history.", "anchors": ["trend/Kdj.go:calculationKD,calculationJ,arrayLowest,arrayHighest"]}
{"id": "C46", "title": "Money flow index is a percentage", "statement": "MFI lies in [0,100] for non-negative prices and volumes and is 100 when no negative flow occurred in the window.", "quantifier": "all candle series and periods", "why_tests_cant": "Inequality over all histories; limit case with zero denominator.", "anchors": ["volume/MoneyFlowIndex.go"]}
{"id": "C47", "title": "Chaikin money flow and the volume-weighted average stay in their natural range", "statement": "For well-formed candles with non-negative volume CMF lies in [-1,1], and VWMA lies between the lowest and highest close of the window when its volume is positive.", "quantifier": "all well-formed candle series and periods", "why_tests_cant": "Inequality over all histories.", "anchors": ["volume/ChaikinMoneyFlow.go:Calculation", "volume/Vwma.go:Calculation"]}
{"id": "C48", "title": "Channel bands bracket their centre line", "statement": "Donchian, Keltner and Bollinger bands satisfy lower <= middle <= upper at every candle; Donchian bands contain every close in the window.", "quantifier": "all well-formed candle series and periods", "why_tests_cant": "Inequality over all histories.", "anchors": ["channel/DonchianChannel.go", "channel/KeltnerChannel.go", "channel/Boll.go"]}
{"id": "C49", "title": "Bollinger strategy can sell", "statement": "The Bollinger strategy emits Sell when the price crosses the upper band and Buy when it crosses the lower band.", "quantifier": "all candle series", "why_tests_cant": "Reachability of an output over all inputs.", "anchors": ["channel/Boll.go:AnalysisSide"]}
{"id": "C50", "title": "On-balance volume is the signed volume sum", "statement": "Obv at candle i is the sum over j <= i of the volume of candle j signed by the direction of the close change at j.", "quantifier": "all candle series", "why_tests_cant": "Recurrence over the history.", "anchors": ["volume/Obv.go:Calculation"]}
{"id": "C51", "title": "Trailing stop only moves with the trend", "statement": "The UTBot trailing stop never moves down while price stays above it and never moves up while price stays below it, and its signals fire exactly when price crosses it.", "quantifier": "all candle series and parameters", "why_tests_cant": "A temporal invariant over all histories.", "anchors": ["trend/UTBot.go"]}
{"id": "C52", "title": "SuperTrend flips only when price crosses the band", "statement": "The SuperTrend lower band is non-decreasing while price closes above it and the upper band non-increasing while price closes below it; the trend changes exactly when the close crosses the opposite band.", "quantifier": "all candle series and parameters", "why_tests_cant": "A temporal invariant over all histories.", "anchors": ["trend/SuperTrend.go", "trend/PivotPointSuperTrend.go"]}
{"id": "C53", "title": "Breakout statistics are consistent", "statement": "For every candle i >= 1, Win + Loss equals i, all percentages lie in [0,100], at most NumberOfLines levels are reported in each direction, and NumberOfLines is always between 1 and 5.", "quantifier": "all candle series and parameters", "why_tests_cant": "Counter invariants over the history.", "anchors": ["trend/BreakoutProbability.go:Calculation,score,backtest,NewBreakoutProbability"]}
{"id": "C54", "title": "Camarilla levels are ordered", "statement": "For high >= low the levels satisfy Low4 <= Low3 <= Low2 <= Low1 <= close <= High1 <= High2 <= High3 <= High4 and lie symmetrically around the close.", "quantifier": "all candles with high >= low", "why_tests_cant": "Inequality over all prices.", "anchors": ["oscillator/Camarilla.go:getCamarilla,Calculation"]}
{"id": "C55", "title": "Signals do not depend on the price unit", "statement": "Multiplying every price by the same positive constant scales every moving average, band and oscillator-in-price-units by it, leaves percentages (RSI, stochastic, Williams %R, PPO, KDJ) unchanged and leaves every crossing signal unchanged.", "quantifier": "all candle series and all positive scale factors", "why_tests_cant": "A relation between all pairs of runs.", "anchors": ["utils/ta/ta.go", "trend/Macd.go", "oscillator/"]}
{"id": "C56", "title": "Strategies run independently and in order", "statement": "RunStrategies returns, for every list of strategies, the list of their AnalysisSide results in the same order.", "quantifier": "all lists of strategies", "why_tests_cant": "All lengths.", "anchors": ["utils/interface.go:RunStrategies"]}
{"id": "C57", "title": "Order-block bookkeeping keeps blocks unique", "statement": "The order-block list of Smart Money Concepts never holds two blocks with the same direction and time, newest first, and removing a block keeps the relative order of the others.", "quantifier": "all histories of add and remove operations", "why_tests_cant": "Operation histories.", "anchors": ["trend/SmartMoneyConcepts_type.go", "trend/SmartMoneyConcepts.go"]}
{"id": "C58", "title": "Sides are distinguishable", "statement": "Buy, Sell and Hold are three different values with three different names; every other value prints as UNKNOWN.", "quantifier": "all 2^32 side values", "why_tests_cant": "Exhaustive over a 32-bit domain.", "anchors": ["utils/Side.go:Side,String,Strings"]}
{"id": "C59", "title": "Ulcer index is non-negative", "statement": "The Ulcer index is a number >= 0 at every candle, and 0 while the close has been at its period high at every candle so far.", "quantifier": "all positive close series and periods >= 1", "why_tests_cant": "Inequality over all histories.", "anchors": ["channel/UlcerIndex.go:Calculation"]}
{"id": "C60", "title": "Replacing NaN", "statement": "Nzs replaces exactly the NaN entries, leaves the others untouched and the length unchanged, and writes through the slice it was given.", "quantifier": "all float64 slices", "why_tests_cant": "All special values.", "anchors": ["utils/ta/ta.go:Nz,Nzs"]}
{"id": "C61", "title": "Bollinger bands are PeriodK deviations wide", "statement": "The bands of NewBoll(item, n, k) lie k standard deviations above and below the middle line (documented: UP = MB + 2*MD).", "quantifier": "all candle series, periods n >= 1 and widths k", "why_tests_cant": "A relation between parameters and every output; example tests fix k = 2 and copied numbers.", "anchors": ["channel/Boll.go:Calculation,NewBoll"]}
{"id": "C62", "title": "Atr's true range is Wilder's", "statement": "The TR of a candle is the largest of high-low, |high - previous close| and |low - previous close|; the first candle's is high-low.", "quantifier": "all well-formed candle series", "why_tests_cant": "All relative positions of a candle and its predecessor, in particular gaps down.", "anchors": ["trend/Atr.go:Calculation"]}
{"id": "C65", "title": "Breakout percentages are hit rates", "statement": "The percentage shown for a level above the high (below the low) is the share of the earlier candles of the same colour whose successor went beyond that level above its high (below its low).", "quantifier": "all candle series, all levels, all parameters", "why_tests_cant": "The counters depend on the whole history; a wrong branch shows only after particular sequences.", "anchors": ["trend/BreakoutProbability.go:score,Calculation"]}
{"id": "C63", "title": "Directional indicators and ADX stay in range", "statement": "On candles whose open and close lie between low and high, with a smoothing length of at least 2, the ADX value of every candle is a number from 0 to 100. Before the first full period +DI and -DI are 0. From then on, once any candle so far has had a positive true range, +DI and -DI are the smoothed directional movements as percentages of the smoothed true range, each is at least 0 and their sum is at most 100; as long as no candle has moved they are NaN.", "quantifier": "all well-formed series of any length, all periods >= 1, all lengths >= 2, all candle indices", "why_tests_cant": "The bound is an inductive consequence of the exclusive up/down rule and of the monotone smoothing recursion; samples cannot rule out a series that drives a percentage outside the range.", "anchors": ["trend/AverageDirectionalIndex.go:64-141"]}
{"id": "C64", "title": "Vortex indicators are window ratios", "statement": "On candles whose open and close lie between low and high, the first candle has 0 for both vortex indicators. For every later candle whose window holds a positive true range, +VI and -VI are the sums of |high - previous low| and |low - previous high| over the last period candles divided by the sum of the true ranges over the same candles; both are at least 0 and together at least 1.", "quantifier": "all well-formed series of any length, all periods >= 1, all candle indices", "why_tests_cant": "The running sums live in ring buffers addressed by i mod period; that they equal the window sums at every index needs an invariant over all series lengths and periods.", "anchors": ["trend/Vortex.go:41-90"]}
{"id": "C66", "title": "ADX is the mean of the last DX values", "statement": "The ADX of a candle is the mean of the DX values of the last Len candles (of all candles when there are fewer), where DX is 0 before the first full period and 100*|up - down|/(up + down) of the smoothed directional movements afterwards. (The code violates this after a candle at which both smoothed movements are 0: DX is NaN there and the running sum keeps the NaN, so ADX is reported as 0 for the rest of the series.)", "quantifier": "all well-formed series of any length, all periods and lengths >= 1, all candle indices", "why_tests_cant": "The failure needs a flat stretch at the start followed by any continuation; the claim is about every continuation, of any length.", "anchors": ["trend/AverageDirectionalIndex.go:86-141", "utils/ta/ta.go:244-270"]}
{"id": "C67", "title": "Smart Money Concepts: when a computation returns", "statement": "With equal-highs/lows detection off and candles whose prices are numbers, a Smart Money Concepts computation returns exactly when there are more than 200 candles and the swing length is not negative; otherwise it panics. With the detection on it also returns if the confirmation length is not negative. It yields one record per candle.", "quantifier": "all series of any length, all parameters", "why_tests_cant": "Panics depend on the interplay of the series length, two swing detectors, backward-drawn lines and list removals at every candle; only an invariant over the whole loop shows that no index can run out of range for any series.", "anchors": ["trend/SmartMoneyConcepts.go:126-438", "trend/SmartMoneyConcepts.go:440-547"]}
{"id": "C68", "title": "Smart Money Concepts: every line comes from a swing and a break", "statement": "In every record a nonzero break-of-structure value is the high (low) of a swing candle at or before the record - one above (below) the following 5 or SwingLenght candles - and some close at or after the record crosses it, not before the swing is confirmed; a nonzero equal-highs (lows) value is the high (low) of a candle at or before the record.", "quantifier": "all series of more than 200 candles without NaN, all parameters, all records and lines", "why_tests_cant": "Lines are written backwards over a range of earlier records from state carried through the loop; that no record ever shows a level unrelated to a swing needs an invariant over all candles.", "anchors": ["trend/SmartMoneyConcepts.go:173-335", "trend/SmartMoneyConcepts.go:372-420"]}
{"id": "C69", "title": "Smart Money Concepts: order block lists", "statement": "After a computation both lists hold at most OrderBlockNumber order blocks, each made of one candle of the series, no two of the same direction and time, none invalidated by the last close (close above the high of a top block, below the close of a bottom block). (The code keeps OrderBlockNumber + 1.)", "quantifier": "all series of more than 200 candles without NaN, all parameters", "why_tests_cant": "The removal loops run over a list while collecting entries and then remove by time and direction; that they remove exactly the right entries for every list and every series needs an inductive argument.", "anchors": ["trend/SmartMoneyConcepts.go:336-369", "trend/SmartMoneyConcepts_type.go:19-55"]}
{"id": "C70", "title": "Smart Money Concepts: which candle becomes the order block", "statement": "The order block of an upward (downward) break is, among the candles from the swing to the break whose range is below twice the 200-candle average true range, the earliest one with the lowest low (highest high). (The code violates this when there is no such candle - always so for breaks within the first 200 candles - and then takes candle 1.)", "quantifier": "all series, all swing and break positions, all previous states", "why_tests_cant": "The choice is made by a backward scan that keeps an index in the object across calls; the claim covers all scans and all leftover indices.", "anchors": ["trend/SmartMoneyConcepts.go:440-500"]}
{"id": "C71", "title": "Smart Money Concepts: strong and weak levels", "statement": "Each reported strong or weak high (low) is the high (low) of the candle whose time it carries, and the highest (lowest) from there on to some candle. (The code violates this while no candle has set the label: the level then carries the time of candle 0.)", "quantifier": "all series of more than 200 candles without NaN, all parameters", "why_tests_cant": "Value and label are updated by separate conditions at every candle; that they always belong to the same candle needs an invariant.", "anchors": ["trend/SmartMoneyConcepts.go:165-240", "trend/SmartMoneyConcepts.go:421-436"]}
{"id": "C72", "title": "Smart Money Concepts: records carry the time of their candle", "statement": "There is one record per candle and it carries the time of that candle. (The code violates this for the records before max(1, SwingLenght), which carry the zero time.)", "quantifier": "all series of more than 200 candles without NaN, all parameters, all records", "why_tests_cant": "A sample can show a missing time but not that all times from SwingLenght on are right for every series and parameter.", "anchors": ["trend/SmartMoneyConcepts.go:173-180", "trend/SmartMoneyConcepts.go:430-436"]}
{"id": "C73", "title": "Smart Money Concepts: reading again gives the same", "statement": "GetData called again returns the same records, also after Clear. (The code violates the second part: Clear keeps the swing state, and a recomputation over the same candles can give other levels and lines.)", "quantifier": "all objects and parameters", "why_tests_cant": "The stable part quantifies over every reachable object; the failing part depends on state left over from a whole earlier run.", "anchors": ["trend/SmartMoneyConcepts.go:119-123", "trend/SmartMoneyConcepts.go:504-555"]}
{"id": "C74", "title": "Smart Money Concepts: a change of character follows an opposite break", "statement": "A change-of-character line upward (downward) is reported only where an earlier close has crossed under a swing low (over a swing high) of the same length. (The code violates this for the long-term downward line, which looks at the short-term trend.)", "quantifier": "all series of more than 200 candles without NaN and with closes >= 0, all parameters, all records", "why_tests_cant": "The trend flags are set by four different branches at arbitrary earlier candles; that a flag always reflects a real earlier break needs an invariant over the loop.", "anchors": ["trend/SmartMoneyConcepts.go:241-335"]}
{"id": "C75", "title": "Padding yields a gap-free grid", "statement": "For candles with strictly increasing times and an interval of whole seconds, addPadding over a window of k >= 1 intervals either reports a misaligned candle - exactly when some candle before the last slot is not at the time of a slot - or leaves exactly k candles, one per slot, each the original candle of that time or an empty one. With purging it also drops the last candle if all its prices and its volume are 0. Nil items, non-positive intervals and windows are errors; a window shorter than one interval panics when purging.", "quantifier": "all series of any length, all intervals of whole seconds, all windows", "why_tests_cant": "The merge of the series with the grid runs over arbitrary gaps; that no candle is lost, duplicated or moved for every combination of gaps needs an invariant.", "anchors": ["utils/klines/kline.go:207-261"]}
{"id": "C76", "title": "A padded series can be upscaled", "statement": "After addPadding has succeeded for a window of k intervals that starts on a whole second after the epoch, ConvertToNewInterval to any multiple r of the interval with 2 <= r <= k succeeds: no panic, no missing-candle error.", "quantifier": "all series, windows and factors", "why_tests_cant": "It combines two functions over all gap patterns, window lengths and factors.", "anchors": ["utils/klines/kline.go:25-142", "utils/klines/kline.go:207-261"]}
{"id": "C77", "title": "Exact number of candles an indicator needs", "statement": "For every indicator type and every choice of parameters, the first GetData of a new object returns exactly for a stated set of candle counts and panics for the others, independently of what the candles contain. With the default constructors only seven of 45 types can fail: Rsi and StochRsi on exactly 14 candles, VolumePriceTrend on an empty item, PivotPointSuperTrend below 9, SuperTrend and LinearRegressionCandles below 11, StochasticHeat below 25 candles (and SmartMoneyConcepts below 201). AnalysisSide fails for the same counts.", "quantifier": "for all indicator types of the library, all parameters (negative and zero included), all items", "why_tests_cant": "The panic at exactly 14 candles is invisible to any test that uses another number of candles; the claim ranges over all lengths, parameters and price data.", "anchors": ["trend/Rsi.go:35-37", "trend/SuperTrend.go:61-63", "trend/StochasticHeat.go:54-56", "volume/VolumePriceTrend.go:39-41", "trend/LinearRegressionCandles.go:54-56"]}
{"id": "C78", "title": "Value lists agree with the records", "statement": "Every GetValue/GetValues/GetDifs/GetMACDs method (except Kdj's lists), called on an object in any state, returns exactly when GetData would, leaves the same object behind, and holds the named field of each record in order; on a new library object it has one value per candle.", "quantifier": "for all 17 getters, all parameters, all object states (any history), all items", "why_tests_cant": "A test fixes one history and one series; the claim is about every state the object can be in, including empty and repeatedly computed ones.", "anchors": ["trend/Macd.go:126-147", "trend/SuperTrend.go:152-161", "trend/TraderXO.go:83-94", "oscillator/StochasticOscillator.go:117-128", "trend/LinearRegressionCandles.go:102-112"]}
{"id": "C79", "title": "Reversal signals are exactly nine-candle runs", "statement": "ReversalSignals reports Buy at candle i exactly if candles i-8..i all close below the close four candles earlier, candle i-9 does not (or has no such predecessor), and one of the last two lows breaks the two lows before; Sell exactly if the last nine candles all do not close below, the one before does (or has no predecessor), and one of the last two highs reaches the two before; otherwise Hold. Hence the first twelve candles are Hold and equal reports are at least ten candles apart.", "quantifier": "for all items of any length, all float values including NaN", "why_tests_cant": "The counter is a state machine over the whole history; a test covers a few runs, the claim characterises every candle of every series.", "anchors": ["trend/ReversalSignals.go:47-107"]}
{"id": "C80", "title": "The volume lines are the running sums and products their formulas name", "statement": "On finite candles: AccumulationDistribution is the sum so far of close location times volume (and moves by at most the volume per candle); NegativeVolumeIndex starts at 1000 and is multiplied by the ratio of closes exactly where volume falls; VolumePriceTrend is the sum of volume times relative change over the period; ForceIndex is the exponential average of change times volume, the first candle counting its whole close (so on a still market it is not 0); EaseOfMovement is the mean over the period of move times range per volume.", "quantifier": "for all lists of finite candles over any ordered field, every period and every index", "why_tests_cant": "Accumulated values depend on the whole history; a test compares a few recorded series.", "anchors": ["volume/AccumulationDistribution.go", "volume/NegativeVolumeIndex.go", "volume/VolumePriceTrend.go", "volume/ForceIndex.go", "volume/EaseOfMovement.go"]}
{"id": "C81", "title": "Every Ichimoku line is midway between the extremes of its own window", "statement": "Conversion line, base line and span B of IchimokuCloud are midway between the highest high and the lowest low of one window each, leading span A is the mean of conversion and base line, and the lagging line is the close lagP candles earlier.", "quantifier": "for all lists of finite candles, all positive periods and every index", "why_tests_cant": "That the high and the low come from the same window only shows on inputs where the two windows differ in their extremes; the claim is over all candles.", "anchors": ["oscillator/IchimokuCloud.go"]}
{"id": "C82", "title": "The lines built on exponential averages are the textbook combinations", "statement": "Ema, Dema, Macd, AbsolutePriceOscillator, AwesomeOscillator, PercentagePriceOscillator, VolumeOscillator, ChaikinOscillator, StochRsi, TraderXO and EMAVegas equal the textbook combination of exponential means, each exponential mean being the weighted mean of all values so far with weights decaying by 1-2/(p+1); on a still market each average is the close and each difference is 0.", "quantifier": "for all lists of finite candles, all periods and every index", "why_tests_cant": "The closed form ranges over the entire history of any length.", "anchors": ["utils/ta/ta.go", "trend/Ema.go", "trend/Dema.go", "trend/StochRsi.go", "trend/Macd.go", "trend/TraderXO.go", "trend/EMAVegas.go", "oscillator/AbsolutePriceOscillator.go", "oscillator/AwesomeOscillator.go", "oscillator/PercentagePriceOscillator.go", "oscillator/ChaikinOscillator.go", "oscillator/VolumeOscillator.go"]}
{"id": "C83", "title": "Simple averages and both CCI are what their windows say", "statement": "Sma and Ma are the mean of the last p closes (of all so far while fewer); Cci is 0 before candle p-1 and then the distance of the typical price from its mean over 0.015 times the mean deviation, NaN when that deviation is 0; AiCoinCCI likewise on its own window.", "quantifier": "for all lists of finite candles, all positive periods and every index", "why_tests_cant": "Windows at every offset of every series, including degenerate windows with no deviation.", "anchors": ["trend/Sma.go", "trend/Ma.go", "trend/Cci.go", "trend/AiCoinCCI.go"]}
{"id": "C84", "title": "Regression candles are end points of least-squares lines", "statement": "Open, high, low and close of each LinearRegressionCandles record are the values at the last candle of the unique line minimising the squared distance to that column over the last p candles, and the signal line is the average of those closes.", "quantifier": "for all lists of finite candles, all periods at least 2 and every index", "why_tests_cant": "Optimality quantifies over all lines as well as over all series.", "anchors": ["trend/LinearRegressionCandles.go", "utils/ta/ta.go"]}
{"id": "C85", "title": "The StochasticHeat lines stay within the plot", "statement": "StochasticHeat's fast line is the average of the smoothed stochastics over inc, 2 inc, ..., scaled to PlotNum, so that it stays within 0 and PlotNum.", "quantifier": "for all lists of finite candles, all positive periods and every index", "why_tests_cant": "A range claim over all inputs; PlotNum's lack of influence shows only when comparing all configurations.", "anchors": ["trend/StochasticHeat.go"]}
{"id": "C86", "title": "Threshold signals are exactly the crossings of their levels", "statement": "From the second candle on WilliamsR (-80/-20), Cci and AiCoinCCI (-100/100) and MoneyFlowIndex (10/90) report Buy exactly when the value was strictly above the lower level and now is strictly below it, Sell exactly when it was strictly below the upper level and now is strictly above it, otherwise Hold. Rsi buys exactly on falling through 20 and sells exactly on falling through 80 (not also 20). ProjectionOscillator compares its two lines at the same candle. EMAVegas' first eleven signals are Buy and later ones follow one exact rule.", "quantifier": "for all items of any length, all parameters, all float values including NaN", "why_tests_cant": "An exact characterisation at every candle of every series, including the unset leading entries.", "anchors": ["oscillator/WilliamsR.go", "trend/Cci.go", "trend/AiCoinCCI.go", "volume/MoneyFlowIndex.go", "trend/Rsi.go", "oscillator/ProjectionOscillator.go", "trend/EMAVegas.go"]}
{"id": "C88", "title": "The projection oscillator places the close inside its projected band", "statement": "ProjectionOscillator is the position of the close between the lowest and highest projected bound in percent, so it lies in 0..100 and is high in a rising market.", "quantifier": "for all lists of finite candles, all periods at least 2 and every index", "why_tests_cant": "The bounds are extrema over every window of every series; the failure is systematic in trending markets.", "anchors": ["oscillator/ProjectionOscillator.go"]}
{"id": "C89", "title": "TraderXO buys and sells alternate at crossings", "statement": "TraderXO's first signal is Hold; later it buys exactly where the fast average is above the slow one and, after the first candle, has not been above since it last was below; it sells in the mirrored case; between two buys there is a sell and between two sells a buy.", "quantifier": "for all items of any length, all periods, any float comparison that is asymmetric", "why_tests_cant": "Alternation is an invariant of a state machine over series of any length.", "anchors": ["trend/TraderXO.go"]}
{"id": "C87", "title": "The Camarilla strategy is a crossing of High4 filtered by the average", "statement": "Camarilla.AnalysisSide reports Buy at a candle exactly when some record of the other series governs it (the first one on the day of the latest candle so far whose day occurs there) and the candle opened below and closed above that record's High4 with the close below the average; Sell in the mirrored case; otherwise Hold. Since the levels of a day contain that day's own close, the signal depends on candles that come later.", "quantifier": "for all pairs of items, all periods, every assignment of days to times, any asymmetric comparison", "why_tests_cant": "The method has no test; the governing record depends on the whole prefix and two series, and look-ahead is a statement about pairs of runs.", "anchors": ["oscillator/Camarilla.go:115-155"]}
{"id": "C90", "title": "Chandelier exits hang three ranges from the extremes of the window", "statement": "Atr.ChandelierExit(p) returns one pair per candle: the long exit is the highest high of the last p candles minus three times the ATR of that candle, the short exit the lowest low plus three times the ATR; with low <= high the long exit never exceeds the highest high and the short exit never falls below the lowest low. For p <= 0 and a non-empty series it panics.", "quantifier": "for all candle series, all positive ATR and window periods (panic: all others)", "why_tests_cant": "The only test prints five pairs; the window extremes come from a balanced-by-history search tree whose content depends on the whole series.", "anchors": ["trend/Atr.go:82-101"]}
{"id": "C91", "title": "Totals, means and standard deviations are the population quantities", "statement": "Cum is the sum and Mean the arithmetic mean of the slice; SD is the square root of the mean squared distance from the mean, zero exactly when all values are equal, unchanged by adding a constant and scaled by |c| when the values are multiplied by c. Mean and SD of the empty slice are NaN, never a panic.", "quantifier": "for all finite slices of any length", "why_tests_cant": "A test compares a few decimals; the zero case and the translation and scaling laws quantify over all slices.", "anchors": ["utils/ta/ta.go:202-224", "utils/ta/ta.go:518-524", "utils/ta/ta.go:964-971"]}
{"id": "C92", "title": "The regression angle is the angle of the regression slope", "statement": "From index p-1 on LinearRegAngle is the angle in degrees of the line whose slope LinearRegSlope returns at the same index: strictly between -90 and 90, positive exactly for rising and negative exactly for falling lines, larger exactly for steeper ones, 45 for slope 1. Earlier entries are 0; with fewer than p values it panics.", "quantifier": "for all slices of reals and all periods p >= 2", "why_tests_cant": "Order preservation compares all pairs of entries of all series.", "anchors": ["utils/ta/ta.go:51-96"]}
{"id": "C93", "title": "Rounding goes to the nearest multiple, ties away from zero", "statement": "RoundDigits(v, d) is a whole multiple of 10^-d at distance at most half a unit from v, in a tie the one farther from zero; it is odd, monotone and idempotent, for negative d too. RoundDigitsAll does the same element by element.", "quantifier": "for all real v, all integers d, all slices", "why_tests_cant": "Monotonicity and the tie rule quantify over all pairs of reals.", "anchors": ["utils/ta/ta.go:637-655"]}
{"id": "C94", "title": "The normalised range follows Wilder's recursion in per cent of the close", "statement": "For p >= 2 Natr panics exactly when there are at most p candles. Otherwise entries before index p are 0; from there on the entry is 100*w/close, or 0 where the close is 0, with w starting at the mean of the true ranges 1..p and following Wilder's recursion, unaffected by the closes that are 0.", "quantifier": "for all candle series of one length, all periods p >= 2", "why_tests_cant": "The recursion carries the whole history; a zero close must not disturb later values.", "anchors": ["utils/ta/ta.go:474-516"]}
{"id": "C95", "title": "Clear is final for the objects that drop their candles", "statement": "A ReversalSignals or VolumeOscillator object answers every call before the first Clear from one fixed list of records, one per candle, in whatever order the calls come. After the first Clear every GetData, GetValues and Calculation panics with a nil dereference, however often it is tried; only further Clear calls succeed.", "quantifier": "for all candle series, all parameters, all histories of calls", "why_tests_cant": "The histories are unbounded call sequences; no test calls anything after Clear.", "anchors": ["trend/ReversalSignals.go:41-44", "trend/ReversalSignals.go:110-115", "oscillator/VolumeOscillator.go:44-47", "oscillator/VolumeOscillator.go:50-87"]}
{"id": "C96", "title": "ComputeCCI reads exactly what it needs and agrees with AiCoinCCI", "statement": "ComputeCCI panics exactly when the deviations are shorter than the closes or the averages end before a candle whose deviation is not 0; otherwise it returns 0 where the deviation is 0 and (close-average)/(0.015*deviation) elsewhere. ta.AiCoinCCI is ComputeCCI of the closes, their moving average and their mean deviation for every period, and its factor has no influence.", "quantifier": "for all three slices of any lengths, all periods, all factors, any float arithmetic", "why_tests_cant": "The function is exported and untested; the three lengths are independent.", "anchors": ["trend/AiCoinCCI.go:47-59", "utils/ta/ta.go:415-435"]}
{"id": "C97", "title": "TotalCandlesPerInterval counts the whole intervals", "statement": "It is 0 for a non-positive interval; otherwise, with start <= end, the number of whole intervals that fit between them; exchanging start and end negates it. It never panics. Beyond 292 years, where time.Sub saturates, it always counts the intervals of 292 years.", "quantifier": "for all instants and intervals", "why_tests_cant": "The truncation towards zero has to be right for all remainders and both signs.", "anchors": ["utils/klines/kline.go:269-275"]}
{"id": "C98", "title": "The search tree with its pointers behaves as a bag", "statement": "At the level of nodes, pointers and interface{} values, any history of Insert, Inserts, Remove, Min and Max on a new tree with float64 values (no NaN) or int64 values neither panics nor loops for ever, and every answer is the one the multiset of the stored values gives. With NaN it still neither panics nor loops. On a non-empty tree a value of another kind than the root's panics: type assertion, or \"not comparable\".", "quantifier": "for all histories of calls, all values, all memory layouts reached", "why_tests_cant": "Correctness of the pointer surgery in removeNode (parent links, the node with two children, the root) depends on the shape of the tree, which depends on the whole history.", "anchors": ["container/bst/bst.go:8-167", "container/comparable.go:14-52"]}
{"id": "C99", "title": "Percentages stay between 0 and 100 under float64 rounding", "statement": "With the rounding of IEEE binary64, %K of StochasticOscillator and RSV, K, D of Kdj are finite numbers in [0, 100], J is one in [-200, 300], and WilliamsR is one in [-100, 0], exactly, for candles with 0 <= low <= close <= high; the only exception is WilliamsR on a window whose highest high equals its lowest low, where it is NaN.", "quantifier": "for all periods, all numbers of candles, all finite float64 prices", "why_tests_cant": "A value of 100.00000000000001 appears only for particular mantissas; the claim is about all roundings.", "anchors": ["oscillator/StochasticOscillator.go", "oscillator/WilliamsR.go", "trend/Kdj.go"]}
{"id": "C100", "title": "RSI stays between 0 and 100 under float64 rounding", "statement": "With the rounding of IEEE binary64 every RSI value is a finite number in [0, 100].", "quantifier": "for all periods up to 2^53, all numbers of candles, all closes from 0 to 2^900", "why_tests_cant": "Wilder's recursion rounds at every candle; no finite number of runs excludes drift out of the range or an overflow.", "anchors": ["trend/Rsi.go"]}
{"id": "C101", "title": "Window sums of whole numbers are exact", "statement": "If the values are integer multiples of one power of two and the magnitudes in p+1 neighbouring places add up to at most 2^53 units, the float64 Sum of period p is the exact sum of each window. Without the bound it is not: Sum(1) of [2^53, 1] ends in 0.", "quantifier": "for all periods, all lengths, all such values", "why_tests_cant": "The running sum adds and removes values for ever; that no error accumulates is an invariant over all lengths.", "anchors": ["utils/ta/ta.go"]}
{"id": "C102", "title": "How far running sums and averages drift", "statement": "For float64 values of magnitude at most M with (p+1) M + n 2^(e-53) <= 2^e, the running Sum at index i differs from the exact window sum by at most (i+1) 2^(e-53), Sma from the exact mean by at most (i+2) 2^(e-53), and %D of StochasticOscillator lies in [0, 100] up to (i+2) 2^-44. The wish that Sma or %D stay inside the range of their inputs is false: after 10^17 the average of ones is 0, and %D leaves [0, 100] on both sides for candles with whole prices.", "quantifier": "for all periods, all lengths, all values within the bound", "why_tests_cant": "The worst case of accumulated rounding is not reached by sample data.", "anchors": ["utils/ta/ta.go", "oscillator/StochasticOscillator.go"]}
{"id": "C103", "title": "Exponential averages stay between whole-number bounds", "statement": "With float64 rounding Ema of period p stays in every interval [lo, hi]*2^e that contains the data if (p+1)|lo| and (p+1)|hi| are at most 2^53. The wish that it stays inside the range of the data is false: the average of the constant 0.1 is not 0.1, and TraderXO with its default periods reports a sale on a market that never moves. For any data of size at most M it leaves the range of the data by at most M*(p+1)*2^-51 (plus the smallest float64 number), however long the series is.", "quantifier": "for all periods, all lengths, all values in the interval", "why_tests_cant": "Each step rounds four times; the claim is an invariant of the recursion.", "anchors": ["utils/ta/ta.go", "trend/TraderXO.go"]}
{"id": "C104", "title": "Bands keep their order under float64 rounding", "statement": "With the rounding of IEEE binary64: Donchian lines are in order and the outer ones are the exact extremes; true range and ATR are finite and not negative; Keltner lines are in order; the eight inner Camarilla levels are in order around the close.", "quantifier": "for all periods from 1 to 2^53, all numbers of candles, all candles with 0 <= low <= close <= high <= 2^900", "why_tests_cant": "Neighbouring lines can be one rounding step apart.", "anchors": ["channel/DonchianChannel.go", "channel/KeltnerChannel.go", "trend/Atr.go", "oscillator/Camarilla.go"]}
{"id": "C105", "title": "Volume lines are exact on whole numbers", "statement": "With float64 rounding Obv is the exact signed sum of volumes that are multiples of one power of two with a total within 53 bits; Vwma is the exact weighted mean rounded once, between closes of its window, for closes and volumes on such grids. Without grids Vwma and Cmf report quotients of rounding errors when the volume comes to an end: a Vwma of 38 for prices below 4, a Cmf of 5.8.", "quantifier": "for all periods, all numbers of candles, all such prices and volumes", "why_tests_cant": "Whether errors cancel depends on the mantissas of the whole series.", "anchors": ["volume/Obv.go", "volume/Vwma.go", "volume/ChaikinMoneyFlow.go"]}
{"id": "C106", "title": "Bollinger bands in float64", "statement": "With float64 rounding the deviation, where it is a number, is not negative and the outer lines bracket the middle line; on a flat market whose price has few enough binary digits all three lines are the price. Claim that the bands are finite is refuted: on a market flat at 1.3 with the default period they are NaN, because the variance is computed as a difference of two rounded sums.", "quantifier": "for all candle series, all periods, all records", "why_tests_cant": "Whether the rounded variance goes below 0 depends on the digits of all closes in the window.", "anchors": ["channel/Boll.go"]}
{"id": "C107", "title": "Ulcer index and money flow index in float64", "statement": "With float64 rounding the Ulcer index is a finite number from 0 to 100. The same claim for the money flow index is refuted: after volume stops it reports 200.", "quantifier": "for all numbers of candles, all finite closes >= 0, all periods from 1 to 2^39", "why_tests_cant": "A range claim over all float64 inputs; the worst case is an error in the last bit.", "anchors": ["channel/UlcerIndex.go", "volume/MoneyFlowIndex.go", "utils/ta/ta.go"]}
{"id": "C108", "title": "Standard deviation and decimal rounding in float64", "statement": "ta.SD of any values of magnitude at most 2^e is a finite number from 0 to 2^(e+1), never NaN. RoundDigits to 0 digits gives the nearest integer, halves away from 0, for every finite float64. To up to 22 digits (in ta and in helpertools) it keeps the order of values; for values of at most 15 digits up to the last place kept it gives the float64 of one of the two neighbouring decimals, leaves decimals as they are, and rounding again changes nothing. It may give the farther of the two neighbours (2.675 to 2 digits).", "quantifier": "for all lists of 1 to 2^50 values, all e from -500 to 400; all finite float64 values", "why_tests_cant": "There are 2^64 values and no finite sample covers the halves.", "anchors": ["utils/ta/ta.go", "helpertools/RoundDigit.go"]}
{"id": "C109", "title": "The program's table", "statement": "main prints one row per candle, in order, numbered from 1, with the candle's time and close and eleven cells, each the name of a strategy and that strategy's signal for that candle. It panics for exactly fourteen candles (in Rsi) and never otherwise. Its first row says BUY eleven times for every market.", "quantifier": "for all numbers of candles, all candle contents, all float arithmetics", "why_tests_cant": "An index error shows only for one length of the input; the row contents are an agreement between eleven objects and a table for all series.", "anchors": ["main.go", "utils/interface.go"]}
{"id": "C110", "title": "What one NaN does to a moving average", "statement": "A single NaN price makes the exponential averages (Ema, Dema, Rma), the running total Sum, the weighted average, the variance and the regression lines NaN from that index to the end of the series, however long; Sma instead reports 0 for ever after. The averages that re-read their window (MA, Dev, AiCoinCCI) are back to the values of the clean series as soon as the bad price has left the window. Max is not: it can report NaN after the bad price is gone.", "quantifier": "for all series, positions of the NaN, periods, and every float arithmetic in which NaN is absorbing (exact arithmetic with NaN and binary64 both proved to be so)", "why_tests_cant": "'For ever' is a statement about arbitrarily long series, and the recovery claim compares two arbitrary series that differ in one place.", "anchors": ["utils/ta/ta.go", "container/comparable.go"]}
{"id": "C111", "title": "One bad tick silences a strategy", "statement": "After one candle whose close is NaN, Macd, AbsolutePriceOscillator, KeltnerChannel, TraderXO, Rsi and EMAVegas answer Hold for every later candle. UTBot trades again.", "quantifier": "for all markets, positions of the bad candle, periods, and float arithmetics in which NaN is absorbing", "why_tests_cant": "The claim ranges over all continuations of the market after the bad candle.", "anchors": ["trend/Macd.go", "oscillator/AbsolutePriceOscillator.go", "channel/KeltnerChannel.go", "trend/TraderXO.go", "trend/Rsi.go", "trend/EMAVegas.go", "trend/UTBot.go"]}
{"id": "C112", "title": "Run-time types in the search tree", "statement": "A tree used with values of one kind (float64, int64, or a user's Comparable whose Compare answers -1, 0 or 1) never panics, every call returns, and it behaves as the typed tree of C01. On a non-empty tree Insert and Remove panic exactly for values of another kind or of no kind. The empty tree accepts a value of no kind; every later call then panics. If Compare answers any other number (a - b, say) Remove loops for ever.", "quantifier": "for all call histories, all mixtures of values, all Compare methods of the user", "why_tests_cant": "The panic condition is an invariant of all reachable trees, and not returning is not observable by a test.", "anchors": ["container/comparable.go", "container/bst/bst.go"]}
{"id": "C113", "title": "Objects built from price columns", "statement": "Ten indicators can be made from columns instead of candles. Columns of one length always are the columns of some candle series, and the object answers as the one made from that series. With other columns: Dema, TraderXO and EMAVegas read closes and times only and return records exactly when there is a time for every close; EMAVegas.AnalysisSide answers exactly when there are at most eleven closes or a bull mark per close, and then returns one side per bull mark; SuperTrend panics if hl2 is too long and silently holds past the end of an hl2 that is too short.", "quantifier": "for all columns, equal in length or not, all parameters, all float arithmetics", "why_tests_cant": "The panic conditions are equivalences over all combinations of column lengths.", "anchors": ["trend/Dema.go", "trend/TraderXO.go", "trend/EMAVegas.go", "trend/SuperTrend.go", "trend/UTBot.go", "trend/AverageDirectionalIndex.go", "trend/LinearRegressionCandles.go", "trend/PivotPointSuperTrend.go", "trend/BreakoutProbability.go", "utils/klines/technical_analysis.go"]}
{"id": "C114", "title": "Averages follow their data in float64", "statement": "With float64 rounding, raising any of the prices lowers none of the values of Ema, Rma and MA, also when NaN or infinities occur (a NaN compares as neither), and for prices up to 2^970 every exponential average is a number. Sma does not have this property: its running sum keeps the rounding error of prices that left the window, and a series with one higher price can have a lower average.", "quantifier": "for all pairs of float64 series of one length with no value of the second below that of the first, all periods below 2^53", "why_tests_cant": "It compares the rounded results of all pairs of inputs; a test can only try some pairs.", "anchors": ["utils/ta/ta.go", "trend/Ema.go", "trend/Rma.go"]}
{"id": "C115", "title": "How far back an indicator looks", "statement": "Two series that end in the same candles give the same records and signals after a fixed number of the common candles, whatever came before and however many candles were loaded: MovingAverage, Sma, VWMA, Donchian, Bollinger, WilliamsR, CMF, CCI after a window; StochasticOscillator two more; EMV, Vortex, MFI one more; Ichimoku after its longest window; LinearRegressionCandles with a simple signal after both windows. In float64 this holds for AiCoinCCI, which adds every window afresh. It fails for Sma in float64 (a passing extreme value leaves an error in the running sum for ever: the average of ones stays 0) and for ProjectionOscillator, which multiplies slopes by the position in the loaded series.", "quantifier": "for all pairs of series of any lengths with a common tail, all periods", "why_tests_cant": "Independence of everything before the window is a statement about all pairs of histories; a test sees a few.", "anchors": ["trend/Sma.go", "trend/Ma.go", "volume/Vwma.go", "channel/DonchianChannel.go", "channel/Boll.go", "oscillator/WilliamsR.go", "oscillator/StochasticOscillator.go", "oscillator/IchimokuCloud.go", "oscillator/ProjectionOscillator.go", "trend/Cci.go", "trend/AiCoinCCI.go", "trend/Vortex.go", "volume/ChaikinMoneyFlow.go", "volume/EaseOfMovement.go", "volume/MoneyFlowIndex.go", "trend/LinearRegressionCandles.go", "utils/ta/ta.go"]}
{"id": "C116", "title": "Exponential indicators forget geometrically; running totals never do", "statement": "For series of bounded numbers that share a tail, the lines built on exponential averages (Ema, Dema, ForceIndex, AbsolutePriceOscillator, AwesomeOscillator, all three Macd lines, the Vegas and TraderXO sets, Atr, the Keltner channel, Kdj's RSV/K/D/J) come within any tolerance of one another after enough common candles, however different the earlier candles were. For Ema the difference shrinks by exactly (p-1)/(p+1) per candle and, for p at least 2, no number of candles removes it. Rsi does not fade: after any number of common flat candles one series still reads 100 and the other 0. The differences of two Obv or AccumulationDistribution lines and the ratio of two NegativeVolumeIndex lines stay constant for ever.", "quantifier": "all periods, all bounds and tolerances, all pairs of series within the bounds, all common tails (exact arithmetic over any Archimedean ordered field; the refutation and the running totals over any ordered field)", "why_tests_cant": "A test compares two particular histories; how much warm-up makes any two histories agree up to a tolerance, or that no warm-up suffices, quantifies over all histories and all lengths.", "anchors": ["trend/Ema.go", "trend/Dema.go", "trend/Macd.go", "trend/EMAVegas.go", "trend/TraderXO.go", "trend/Atr.go", "trend/Kdj.go", "trend/Rsi.go", "volume/ForceIndex.go", "volume/Obv.go", "volume/AccumulationDistribution.go", "volume/NegativeVolumeIndex.go", "oscillator/AbsolutePriceOscillator.go", "oscillator/AwesomeOscillator.go", "channel/KeltnerChannel.go", "utils/ta/ta.go"]}
{"id": "C117", "title": "Turning the market upside down", "statement": "Replace every price a by m - a (exchanging highs and lows). Price lines turn into m minus themselves (Sma, Ma, Ema, Dema, the Vegas and TraderXO sets, Donchian with upper and lower band exchanged, the middle of Keltner, the Ichimoku lines); differences change sign (Apo, Awesome, Macd, Obv, Cmf, AD and Chaikin for closes inside the candle, both Ccis); the two directional lines of Adx and of Vortex change places while Adx itself stays; percentages turn into their complement (Stochastic, Williams, Kdj for candles with a range); Rsi readings add to 100 or are both 0. Buy and Sell signals change places for fourteen strategies. It fails for Atr and the Keltner bands (downward gaps are not counted), for the Rsi signals and for the trailing stops UTBot, SuperTrend and PivotPointSuperTrend.", "quantifier": "all levels m, all series of numbers, all positive periods, all candles (from the first decided one for signals); exact arithmetic over any ordered field", "why_tests_cant": "A bias for one direction shows only by comparing every series with its mirror image; unit tests check single recorded series.", "anchors": ["trend/Sma.go", "trend/Ma.go", "trend/Ema.go", "trend/Dema.go", "trend/EMAVegas.go", "trend/TraderXO.go", "trend/Macd.go", "trend/Cci.go", "trend/AiCoinCCI.go", "trend/AverageDirectionalIndex.go", "trend/Vortex.go", "trend/Kdj.go", "trend/Rsi.go", "trend/Atr.go", "trend/UTBot.go", "trend/SuperTrend.go", "trend/PivotPointSuperTrend.go", "channel/DonchianChannel.go", "channel/KeltnerChannel.go", "oscillator/IchimokuCloud.go", "oscillator/AbsolutePriceOscillator.go", "oscillator/AwesomeOscillator.go", "oscillator/ChaikinOscillator.go", "oscillator/StochasticOscillator.go", "oscillator/WilliamsR.go", "volume/Obv.go", "volume/ChaikinMoneyFlow.go", "volume/AccumulationDistribution.go"]}
{"id": "C118", "title": "Adding the same amount to every price", "statement": "Add c to all prices of a series. Price lines (averages, Vegas and TraderXO sets, Donchian, Keltner, Ichimoku) move by c; differences, ranges, directional lines and percentages (Apo, Awesome, Macd, Obv, Cmf, AD, Chaikin, both Ccis, Adx, Vortex, Stochastic, Williams, Kdj, Rsi, the average of Atr) stay; all signals of these strategies stay, the undecided first ones included. The true range of the first candle, the percentages of PercentagePriceOscillator and the signals of UTBot do see the shift.", "quantifier": "all amounts c of either sign, all series of numbers, all positive periods (Rsi from 2), all candles; exact arithmetic over any ordered field", "why_tests_cant": "It relates the outputs for infinitely many pairs of series; unit tests check single recorded series.", "anchors": ["trend/Sma.go", "trend/Ema.go", "trend/Dema.go", "trend/EMAVegas.go", "trend/TraderXO.go", "trend/Macd.go", "trend/Cci.go", "trend/AverageDirectionalIndex.go", "trend/Vortex.go", "trend/Kdj.go", "trend/Rsi.go", "trend/Atr.go", "trend/UTBot.go", "channel/DonchianChannel.go", "channel/KeltnerChannel.go", "oscillator/IchimokuCloud.go", "oscillator/PercentagePriceOscillator.go", "oscillator/StochasticOscillator.go", "oscillator/WilliamsR.go", "volume/Obv.go"]}
{"id": "C119", "title": "A name stands for one indicator with one set of parameters", "statement": "Constructors store a Name made of the type and its parameters, and AnalysisSide returns signals under that name. Two constructor calls that give the same name are the same constructor with the same parameters. (Holds for 41 of the 47 constructors, against all 47; EMAVegas, SuperTrend, UTBot and LinearRegressionCandles leave out a parameter, PivotPointSuperTrend and BreakoutProbability round one, and in each case objects with the same name can give different results.)", "quantifier": "all pairs of constructor calls with all integer parameters, negative ones included, and all ways of printing floats", "why_tests_cant": "It compares the names of infinitely many pairs of objects; a test prints one name.", "anchors": ["trend/UTBot.go", "trend/SuperTrend.go", "trend/EMAVegas.go", "trend/LinearRegressionCandles.go", "trend/PivotPointSuperTrend.go", "trend/BreakoutProbability.go", "trend/Macd.go", "trend/Cci.go", "trend/AiCoinCCI.go", "oscillator/Camarilla.go", "channel/Boll.go", "volume/Obv.go"]}
{"id": "C120", "title": "In float64, difference oscillators never show a wrong sign", "statement": "Apo, AwesomeOscillator, ChaikinOscillator, the DIF and the bar of Macd and the histogram of PPO are positive exactly where the first of the two float64 lines they compare is larger and negative exactly where it is smaller; so the Buy and Sell signals of Apo, AwesomeOscillator and ChaikinOscillator are exactly the crossings of the computed averages. PPO and VolumeOscillator, which divide by the slow average, keep the sign where both averages are numbers, the fast one not negative, the slow one positive and their quotient at most 2^900.", "quantifier": "all float64 series, with NaN and infinities for the differences; all periods; all candles; IEEE 754 binary64 with rounding, underflow and overflow", "why_tests_cant": "Whether a rounded difference may collapse to 0 or flip is a statement about all pairs of float64 numbers.", "anchors": ["oscillator/AbsolutePriceOscillator.go", "oscillator/AwesomeOscillator.go", "oscillator/ChaikinOscillator.go", "oscillator/PercentagePriceOscillator.go", "oscillator/VolumeOscillator.go", "trend/Macd.go", "utils/ta/ta.go"]}
{"id": "C121", "title": "Trailing stops never loosen, rounding included", "statement": "In float64: while two successive closes are above the stop of UTBot it is not lowered, and while they are below it it is not raised; with a multiple of at least 0 and no high below its low, the new stop is never on the wrong side of the close that set it. The lower band of SuperTrend is not lowered after a close above it and the upper band is not raised after a close below it; so it is for the line PivotPointSuperTrend shows while it stays on one side.", "quantifier": "all float64 series (NaN and infinities included), all parameters, all candles; IEEE 754 binary64", "why_tests_cant": "It concerns every history, and rounding of every distance; tests compare a few recorded stops.", "anchors": ["trend/UTBot.go", "trend/SuperTrend.go", "trend/PivotPointSuperTrend.go", "utils/ta/ta.go"]}
{"id": "C122", "title": "What does not depend on the processor", "statement": "Go may compute x*y + z with one rounding (it does on arm64, not on amd64). Whatever is fused, the lines of Sma, CommodityChannelIndex, AiCoinCCI, WilliamsR, Stochastic K, Obv, Vortex, DonchianChannel, Ichimoku (all but the first span), the true range and Reversal are bit by bit the same, and so are the signals of CommodityChannelIndex, AiCoinCCI, WilliamsR and DonchianChannel. Ema keeps its bounds, Rsi and Kdj stay in their ranges, Atr is not negative, the Keltner lines are ordered, the stops of UTBot, SuperTrend and PivotPointSuperTrend do not loosen, and the differences of Apo, ChaikinOscillator and Macd have the sign of the order of their two averages. The bands of Boll, the bar of PPO and the signals of TraderXO do depend on the processor.", "quantifier": "all choices a compiler may make of which products to fuse into which sums, all float64 series, all parameters", "why_tests_cant": "Tests run on one processor with one compiler.", "anchors": ["utils/ta/ta.go", "trend/Ema.go", "trend/Rsi.go", "trend/Kdj.go", "trend/Cci.go", "trend/UTBot.go", "trend/SuperTrend.go", "trend/PivotPointSuperTrend.go", "trend/Macd.go", "oscillator/WilliamsR.go", "oscillator/PercentagePriceOscillator.go", "channel/KeltnerChannel.go", "channel/DonchianChannel.go", "channel/Boll.go", "volume/Obv.go", "trend/TraderXO.go"]}
{"id": "C123", "title": "What an indicator reads", "statement": "Each of the library's indicators reads a fixed list of candle columns (Ema, Sma, Rsi and their kind only closes; Cci, Atr and the channels highs, lows and closes; Obv closes and volumes; and so on). On two series that agree in those columns an indicator panics on both or on neither, and its records at candles with the same timestamp are equal; its buy and sell signals are equal whatever the timestamps. Names, interval, amount, trade count, change percent and the other columns have no influence. No column in the list is superfluous. The Vegas strategy also reads the IsBullMarket flag: if the feed leaves it unset, the strategy never buys after its first eleven candles.", "quantifier": "all pairs of candle series of any length, all parameters, any arithmetic for float64", "why_tests_cant": "A test can show that a column matters for some series, not that a column has no influence on any series.", "anchors": ["trend/Ema.go", "trend/Cci.go", "trend/EMAVegas.go", "channel/KeltnerChannel.go", "oscillator/StochasticOscillator.go", "volume/Obv.go", "utils/klines/technical_analysis.go"]}
{"id": "C124", "title": "A change of unit in floating point", "statement": "In 53-bit binary floating point (rounding to nearest even at every operation, no limits on the exponent) the indicators of C55, among them the averages, Macd, Atr, Bollinger, Keltner and Vegas lines, oscillators and volume lines, give bit-for-bit the converted results, and the strategies the same signals, when all prices are multiplied by one power of two and all volumes by another. Each operation of float64, including math.Sqrt, gives the result of that arithmetic whenever its result is a normal number or exactly zero (sums: whenever it is finite). The claim does not extend to other units or to tiny numbers: quoted in tenths of a unit, a flat market gets other TraderXO signals, and in units of 2^-1074 an average of two prices equals the second of them.", "quantifier": "all candle series of any length, all parameters, all exponents of both units", "why_tests_cant": "A test multiplies one series by one factor; that no rounding of any series is affected by any power of two is a statement about all of them.", "anchors": ["trend/Ema.go", "trend/TraderXO.go", "trend/Macd.go", "channel/KeltnerChannel.go", "utils/ta/ta.go"]}
{"id": "C125", "title": "FormatDecimalFloat64 rounds to the nearest decimal", "statement": "FormatDecimalFloat64(x, exp) panics exactly on NaN and infinities. For every finite x it is the float64 nearest to the multiple of 10^exp nearest to the exact value of x, halves away from zero. Rounding the result again changes nothing, the order of values is kept, and a price n*10^exp with |n| < 2^52 comes back as the float64 of that price. Near the end of the range the result can be infinite, and rounding it again panics.", "quantifier": "all float64 values, all exponents (from -323 for prices)", "why_tests_cant": "The comment of the function lists seven values; that no value of 2^64 drifts when rounded twice depends on how decimal and binary halves interact.", "anchors": ["utils/commonutils/common.go"]}
{"id": "C126", "title": "A market that does not move gives no signals", "statement": "If every candle of a series holds the same open, high, low, close and volume, a strategy holds at every candle it judges. In exact arithmetic this is so for nineteen strategies with any admissible parameters, for Bollinger bands and the money flow index over the real numbers, and for Camarilla against any second time frame. It is false for SuperTrend and PivotPointSuperTrend, which sell once, and for ProjectionOscillator, which buys at every candle from its period on; those three hold when the repeated candle is a single price. In float64 it is also false for TraderXO and for Bollinger bands, which buy on a market that stays at 49.3.", "quantifier": "all series lengths, all repeated candles, all times, all parameters in the stated ranges", "why_tests_cant": "A test repeats one candle a fixed number of times with one set of parameters; the Projection signal never stops and the Bollinger one depends on the digits of the price.", "anchors": ["trend/SuperTrend.go", "trend/PivotPointSuperTrend.go", "oscillator/ProjectionOscillator.go", "trend/TraderXO.go", "channel/Boll.go", "trend/StochasticHeat.go", "oscillator/ChaikinOscillator.go"]}
{"id": "C127", "title": "What a higher price in the current candle does", "statement": "Replace the last candle of a series by the same candle after its price has risen further: the close is higher and the high is at least the new close. In exact arithmetic GetData panics if and only if it did before, and the last value does not fall for SMA, EMA, DEMA, APO, the three MACD lines, Awesome, Donchian, the middle Keltner line, four Ichimoku lines, OBV, VWMA, Force, the commodity channel index and the lines of StochasticHeat, KDJ, Stochastic and Williams; for positive closes also PPO, NVI and VPT; with volumes that are not negative also CMF, AD and Chaikin. RSI does not fall unless it drops under its cut-off of 1e-14 to 0. The last signal becomes no less bullish for APO, Awesome, MACD, Chaikin, Donchian, Keltner, Stochastic, KDJ, TraderXO, Ichimoku, EMAVegas, PPO, UTBot and Bollinger bands, and no more bullish for Williams, both CCI strategies and StochasticHeat. It is false for the ADX and Vortex lines, the lower Keltner line, ProjectionOscillator, MFI and EaseOfMovement, and for the signals of RSI, MFI, ProjectionOscillator and the two super trends.", "quantifier": "all series and lengths, all rises of the last price, all parameters in the stated ranges, every ordered field (real numbers for Bollinger bands)", "why_tests_cant": "The unit tests compute each indicator on one fixed series; the property compares any series with every continuation of its last candle.", "anchors": ["oscillator/PercentagePriceOscillator.go", "trend/Macd.go", "trend/UTBot.go", "trend/StochasticHeat.go", "trend/Rsi.go", "channel/Boll.go", "channel/DonchianChannel.go", "volume/ChaikinMoneyFlow.go", "volume/VolumePriceTrend.go", "volume/NegativeVolumeIndex.go"]}
{"id": "C128", "title": "One quantity in several files", "statement": "Several files compute what is by name one quantity. In any arithmetic, rounding included, the averages shown by KeltnerChannel, TraderXO, Camarilla and EMAVegas are the line of Ema, the DIF of Macd is AbsolutePriceOscillator, the AD line of ChaikinOscillator is AccumulationDistribution, Ma is Sma, the middle Bollinger band is Sma, and the Keltner bands are Ema plus and minus twice Atr. In exact arithmetic Williams %R is the K line minus 100 unless the window has no range (then K is 0 and Williams is not finite); the RSV of KDJ is K on a full window whose range is at least 1e-6 and 100 below that; the percentage price oscillator is the absolute one as a percentage of the slow Ema; the regression line of LinearReg has the slope and end point of MovingLeastSquare over the positions; the Bollinger deviation is ta.StdDev if the variance is at least 1e-14, else StdDev is 0; Atr is ta.Atr from candle p on if no candle lies wholly below the close before it; Cci is AiCoinCCI if every close is the middle of its candle and the closes of the window are not all equal. Without these conditions Atr and ta.Atr, and the two CCI, differ; the middle Donchian line is not the Ichimoku base line.", "quantifier": "all series and lengths, all periods in the stated ranges; any arithmetic for the first group, every ordered field for the second (real numbers where a square root is taken)", "why_tests_cant": "Each unit test runs one file on one series; that two files agree on every series, and exactly when they stop agreeing, is a statement over all series.", "anchors": ["channel/KeltnerChannel.go", "channel/Boll.go", "trend/Ema.go", "trend/Macd.go", "oscillator/AbsolutePriceOscillator.go", "trend/TraderXO.go", "trend/EMAVegas.go", "oscillator/ChaikinOscillator.go", "oscillator/WilliamsR.go", "oscillator/StochasticOscillator.go", "trend/Kdj.go", "trend/Atr.go", "trend/Cci.go", "trend/AiCoinCCI.go", "trend/LinearRegressionCandles.go"]}
{"id": "C129", "title": "What a padded gap does to the indicators", "statement": "addPadding inserts a candle whose prices and volume are 0 wherever the exchange sent none, and the indicators read it as a price of 0. One such candle makes the negative volume index 0 to the end of the series, two in a row make it NaN to the end. It is the lower Donchian line, and the low against which the stochastic measures the close, as long as it is in the window. The exponential average falls by the factor (p-1)/(p+1). Atr sees a true range of 0 at the padded candle and of the whole high at the next. On-balance volume counts the candle after the gap as a rise whichever way the price went. The Donchian strategy buys right after the gap unless the price has halved, the Keltner strategy exactly if the price is above (p-1)/(p+1) of the average before the gap; eight strategies trade on a market that otherwise does not move. The accumulation/distribution line does not move at the padded candle, and Vwma does not read its price.", "quantifier": "all series, all positions of the padded candle, all periods in the stated ranges, every ordered field; the padding itself in any arithmetic", "why_tests_cant": "No unit test feeds a padded series to an indicator, and the effect to the end of the series is a statement about series of every length.", "anchors": ["utils/klines/kline.go", "volume/NegativeVolumeIndex.go", "channel/DonchianChannel.go", "channel/KeltnerChannel.go", "oscillator/StochasticOscillator.go", "volume/Obv.go", "trend/Atr.go", "trend/Ema.go", "volume/AccumulationDistribution.go", "volume/Vwma.go"]}
{"id": "C130", "title": "Two data feeds that nearly agree", "statement": "Exchanges report slightly different prices for one candle. If no price of two feeds with the same volumes differs by more than e then, in exact arithmetic and at every candle, Sma, Ma, Ema, the middle Keltner line, the Donchian and Ichimoku lines, Vwma (volumes not negative), the middle Bollinger band and the Bollinger deviation differ by at most e; AbsolutePriceOscillator, AwesomeOscillator, the DIF and DEA of Macd, Atr and the upper and lower Bollinger bands by at most 2e; Dema by at most 3e, the upper and lower Keltner bands by at most 5e, the Macd bar by at most 8e. The stochastic differs by at most 400e/R percentage points if the range of both windows is at least R. Without such a range there is no bound: for every e there are feeds that differ by at most e on which the stochastic and Williams %R differ by 100, CMF by 2, and the accumulation line and on-balance volume by twice the volume of the last candle.", "quantifier": "all pairs of series of any length, all e, all periods from 1, every ordered field (real numbers for Bollinger)", "why_tests_cant": "A bound for every pair of nearby series cannot be read off one series; the sensitivity at thin ranges needs arbitrarily small e.", "anchors": ["trend/Sma.go", "trend/Ema.go", "trend/Dema.go", "trend/Macd.go", "trend/Atr.go", "channel/KeltnerChannel.go", "channel/DonchianChannel.go", "channel/Boll.go", "oscillator/IchimokuCloud.go", "oscillator/StochasticOscillator.go", "oscillator/WilliamsR.go", "volume/Obv.go"]}
{"id": "C131", "title": "Coarser candles see what a longer window sees", "statement": "Converting regular candles to an r times longer interval and then to an s times longer one gives the candles of one conversion to the r*s times longer interval, left-over candles included (exact arithmetic; in float64 the volume can differ). Stochastic, Williams %R and Ichimoku span B with period p on the coarse candles have at each coarse candle the value they have with period p*r on the fine candles at the last candle it was made of. Lines that read closes instead of highs and lows, such as the Donchian channel, do not have this property.", "quantifier": "for all regular series, all ratios r and s, all periods", "why_tests_cant": "The equality relates every ratio, every period and every left-over length; a test fixes one of each, and the float64 failure needs volumes above 2^53.", "anchors": ["utils/klines/kline.go", "oscillator/StochasticOscillator.go", "oscillator/WilliamsR.go", "oscillator/IchimokuCloud.go", "channel/DonchianChannel.go"]}
{"id": "C132", "title": "Signals on which two nearly equal feeds cannot disagree", "statement": "If two feeds have as many candles and differ by at most e in every price, the zero-line strategies of the absolute price and awesome oscillators and the middle-line strategies of the Donchian and Keltner channels give the same signal at each candle at which, on one of the feeds, the two compared lines are more than 2e apart there and one candle before. Macd needs 4e between its lines at both candles and both lines more than 2e from zero; Bollinger needs 3e between close and upper band. Without the margin the signals can differ.", "quantifier": "for all pairs of series, all e, all periods, every candle", "why_tests_cant": "Two live feeds never agree to the last digit; which discrepancies are harmless is a statement about all pairs of series.", "anchors": ["oscillator/AbsolutePriceOscillator.go", "oscillator/AwesomeOscillator.go", "channel/DonchianChannel.go", "channel/KeltnerChannel.go", "trend/Macd.go", "channel/Boll.go"]}
{"id": "C133", "title": "Cleaning a downloaded series", "statement": "RemoveOutsideRange and RemoveDuplicates can be run in any order and any number of times: the candles shown at the end depend only on which steps were run. Two windows in a row equal their common window if that lasts a second. Without duplicates the sorting has one outcome and commutes with the window. Pieces of one series that overlap and come in any order but cover the window give, after removing duplicates, sorting and cutting, the candles of the series in the window. Of two versions of a candle the one downloaded first stays; if duplicates are sorted before they are removed, which one stays is not determined.", "quantifier": "for all memories, items, sequences of steps, windows and divisions into pieces", "why_tests_cant": "All orders of all step sequences and all overlapping divisions of a series are infinitely many; sort.Slice may order equal times differently from run to run.", "anchors": ["utils/klines/kline.go"]}
{"id": "C134", "title": "Indicators on Heikin-Ashi candles", "statement": "The Heikin-Ashi series of a series of numbers is a series of numbers, so every theorem about an indicator on an arbitrary series applies to it on Heikin-Ashi candles. A Heikin-Ashi candle depends on its own candle and the one before only. Heikin-Ashi candles follow a change of unit and an amount added to every price, do not magnify the difference of two feeds, rise when prices rise, and stay within the range of two candles. They have no volume: OBV, volume price trend, force index, ease of movement, money flow and VWMA are 0 on them, and the negative volume index follows every close. Their open is not the textbook one and IsBullMarket tells the colour of the raw candle.", "quantifier": "for all series, periods, units and candles", "why_tests_cant": "The composition with every indicator and the invariances quantify over all series; a test shows single values.", "anchors": ["utils/klines/technical_analysis.go", "volume/Obv.go", "volume/VolumePriceTrend.go", "volume/NegativeVolumeIndex.go"]}
{"id": "C135", "title": "Trend followers do not sell a market that never falls", "statement": "On a market whose close never falls, an exponential average is never above the close and never falls, and the longer of two averages is never above the shorter one. So the strategies of AbsolutePriceOscillator, Macd, KeltnerChannel, DonchianChannel, TraderXO and EMAVegas never sell there, and the strategy of AwesomeOscillator never sells when no high and no low falls. On a market that never rises they never buy, their fixed answers on the first candles apart. UTBot with a factor that is not negative does the same. SuperTrend gives no signal after the first candle if prices are not negative and every candle closes in its upper half; without that it can sell. The oscillators PercentagePriceOscillator, StochasticOscillator, Kdj, WilliamsR, Cci and StochRsi do sell in a market where no price is below the one before.", "quantifier": "all series of numbers with the stated monotone columns, of any length, all periods with 1 <= fast <= slow, all factors >= 0", "why_tests_cant": "a test takes one rising series; that none of the unboundedly many rising series is ever sold needs the ordering of the averages by induction", "anchors": ["oscillator/AbsolutePriceOscillator.go", "oscillator/AwesomeOscillator.go", "trend/Macd.go", "trend/EMAVegas.go", "channel/KeltnerChannel.go", "channel/DonchianChannel.go", "trend/Ema.go"]}
{"id": "C136", "title": "Objects whose candle series changes after they were made", "statement": "Consider an indicator object whose candle item goes on changing (candles appended, pruned, replaced) between method calls. (a) The strategies whose constructor copies the columns (TraderXO, UTBot, EMAVegas, SuperTrend, PivotPointSuperTrend) answer every sequence of GetData, AnalysisSide and Calculation as if the item had never changed. (b) Once the cache is filled, and until Calculation is called, every GetData answers the same records whatever happens to the item. (c) The strategies that keep the pointer (the nineteen others of the common shape) follow the item inconsistently: after candles were appended, AnalysisSide answers the old sides followed by Buy for every new candle whatever its prices are; if the item became shorter, AnalysisSide panics with an index error. (d) Calling Calculation after the change repairs APO, MACD, KDJ and Boll (records and sides of a new object); for the fifteen types that append to their cache it leaves more records than candles, and AnalysisSide panics.", "quantifier": "all strategies of each group and all parameters (Ichimoku with conversion period at least 1), all items before and after the change, all event sequences for (a) and (b)", "why_tests_cant": "the answer depends on the order of an unbounded sequence of changes and calls and on the length of both series, and the unit tests make each object once on a fixed series", "anchors": ["trend/Macd.go", "trend/Kdj.go", "trend/UTBot.go", "trend/SuperTrend.go", "channel/DonchianChannel.go", "oscillator/StochasticOscillator.go", "oscillator/IchimokuCloud.go", "volume/MoneyFlowIndex.go"]}
{"id": "C137", "title": "Longer windows are wider; larger multipliers are not", "statement": "For periods 1 <= p <= q and the same candles: (a) Max with period q is at every index at least Max with period p, and Min at most; so at every candle the Donchian channel of period q contains the one of period p. This holds in float64 as in exact numbers, for values other than NaN. (b) Every non-zero value of PivotHigh and PivotLow for a window (l', r') is, r' - r indices earlier, the value for every smaller window (l, r). (c) A close at the top or bottom of WilliamsR for period q is there for period p unless the shorter range is empty. (d) No such law holds for the multipliers of the trailing stops: with a larger multiplier UTBot and SuperTrend can trade where they do not trade with the smaller one, and the SuperTrend stop can be nearer to the price.", "quantifier": "all candle series, all indices, all periods and pivot windows; (a) and (b) for every number type with ordered comparisons, (c) for exact numbers", "why_tests_cant": "compares two runs with different unbounded parameters at every index of an unbounded series; (d) needs a market chosen against the multiplier", "anchors": ["utils/ta/ta.go", "channel/DonchianChannel.go", "oscillator/WilliamsR.go", "trend/UTBot.go", "trend/SuperTrend.go"]}
{"id": "C138", "title": "A copy kept from before an in-place cleaning", "statement": "RemoveOutsideRange, RemoveDuplicates and Clear write into the array behind item.Candles. A struct copy of the item, or any variable that holds the old slice, keeps its length and afterwards sees the kept candles followed by the tail of the old series. It shows the old series exactly when the kept candles are a prefix of it; otherwise candles are lost and others appear twice. After Clear every element it reads is a nil pointer, and using it panics.", "quantifier": "every memory, every valid item, every other item or variable with the same slice, every date range", "why_tests_cant": "Tests look at the item that was cleaned, not at other holders of its slice, and the effect depends on where in the series the dropped candles were.", "anchors": ["utils/klines/kline.go"]}
{"id": "C139", "title": "From a raw feed to a full series", "statement": "For every feed of candles in any order, with repeated and out-of-range times: after RemoveDuplicates, RemoveOutsideRange(start, end), an ascending sort and addPadding(start, end), the series has exactly one candle per interval of the window: the first candle of the feed with that time, or an empty one if there is none; addPadding fails exactly when a candle in range and before the last slot lies off the grid. Sorting before removing duplicates may keep a later one of them. With the flag desc=false, documented as ascending, padding fails, or, when the latest candle lies in the last slot, succeeds with every other candle replaced by an empty one.", "quantifier": "every memory and valid item, every interval of whole seconds, every window of one interval or more, every result sort.Slice may give", "why_tests_cant": "It is a statement about the composition of four operations on arbitrary feeds, including every order an unstable sort may choose.", "anchors": ["utils/klines/kline.go"]}
{"id": "C140", "title": "The float64 exponential average tracks the exact one, and signals agree when the exact lines are apart", "statement": "For data of size at most 2^k the float64 Ema of period p is within (p+1)*2^(k-51) of the exact Ema at every position, however long the series. Hence, if from the second candle on the exact lines are further apart than the stated bounds, TraderXO, AbsolutePriceOscillator and Macd return in float64 exactly the signals of exact arithmetic. The Macd difference and signal lines are within (short+long+2*signal+5)*2^(k-51) of the exact ones.", "quantifier": "all series of float64 candles of any length with closes of size at most 2^k, -1021 <= k <= 899, all periods from 1 to 2^52-1", "why_tests_cant": "A test compares a few outputs with a tolerance; it cannot show that rounding errors do not accumulate over arbitrarily long series, nor that no data set flips a signal while the exact lines are apart.", "anchors": ["utils/ta/ta.go", "trend/TraderXO.go", "oscillator/AbsolutePriceOscillator.go", "trend/Macd.go"]}
{"id": "C141", "title": "The slice GetData returns is the object's own", "statement": "GetData returns the slice header the object itself uses. A write to record i of the result changes record i of the object and can change only the sides of candles i and i+1. After another Calculation of a type that appends, the object shows the old records with the caller's changes followed by the new ones; the kept slice still shows what it showed; later writes through it reach the object exactly if the old array had room for all new records. For a type that builds a new slice the two have nothing to do with each other any more. A record a caller appends to the result is replaced by another caller's, or by the next Calculation, exactly if the array of the object had room.", "quantifier": "every strategy that reads the item through its pointer, every series, every memory, every record and position, every capacity policy of append", "why_tests_cant": "What is shared depends on capacities the run-time chooses; a test sees one growth policy and one length.", "anchors": ["trend/Macd.go", "oscillator/AwesomeOscillator.go", "volume/ForceIndex.go"]}
{"id": "C142", "title": "The text of an interval says which interval it is", "statement": "The text that Interval.String prints, read as numbers with the units h, m, s, ms, µs and ns, names the interval exactly, to the nanosecond, sign included. So two intervals with the same text are the same interval, and the two intervals named in a conversion error are the ones that were asked for.", "quantifier": "all intervals (every signed number of nanoseconds)", "why_tests_cant": "There are 2^64 durations; the digits, the dropped trailing zeros, the choice of unit and the carry between hours, minutes and seconds interact, and a test looks at a few named intervals.", "anchors": ["utils/klines/kline.go", "utils/klines/kline_type.go"]}
{"id": "C143", "title": "Wilder averages, ranges and channels in float64 track the exact ones", "statement": "With prices of size at most 2^k the float64 Wilder average stays within p 2^(k-51) of the exact one, the average true range within (p+1) 2^(k-50), and the three Keltner lines within (p+1) 2^(k-48), at every candle of a series of any length. So KeltnerChannel, AwesomeOscillator and EMAVegas give the exact signals whenever the exact lines they compare are further apart than the stated margins.", "quantifier": "all periods up to 2^52, all price bounds 2^k, all series of any length", "why_tests_cant": "Every candle adds roundings to a recursion that never forgets completely; a test sees one series and cannot show that the error stays below a bound that does not grow with the number of candles.", "anchors": ["utils/ta/ta.go", "trend/Rma.go", "trend/Atr.go", "channel/KeltnerChannel.go", "oscillator/AwesomeOscillator.go", "trend/EMAVegas.go"]}
{"id": "C144", "title": "Trailing stops in float64 turn at the same candles as the exact ones", "statement": "For UTBot with distance n times the average true range of p candles, and for SuperTrend with bands at that distance, put E = (3n+1)(p+1) 2^(k-51) for prices of size at most 2^k. If no close comes within E of an exact stop or band (for SuperTrend: and no band within E of zero), the float64 stops and bands stay within E of the exact ones at every candle and the float64 signals are exactly the exact signals. UTBot needs nothing before the first average: there the float64 stops are exact.", "quantifier": "all n up to 2^50, all periods p up to 2^52, all price bounds 2^k, all series of any length", "why_tests_cant": "A stop is kept, raised or thrown to the other side depending on comparisons with rounded values; one comparison that goes the other way changes every later stop by a whole distance. That this never happens outside a margin which does not grow with the series is not visible in any finite set of runs.", "anchors": ["trend/UTBot.go", "trend/SuperTrend.go", "utils/ta/ta.go"]}
{"id": "C145", "title": "Numbers written as text by a candle are read back by FloatFromString", "statement": "FloatFromString reads a decimal text (sign, digits, point, exponent) as the float64 nearest to the number it names and reports an error only if the number is too large, if the text is empty or holds a foreign character, or if the argument is no string. The text printed with a fixed number of decimals names a number within half a unit of the last place, is always read back without an error, within one unit of the last place and never out of order; a number given with that many decimals and fewer than 2^52 units comes back as the same float64; printing what was read gives the same text again. Refuted: reading without an error does not exclude NaN and infinities, and positive numbers up to half a unit are printed and read as zero.", "quantifier": "all texts, all float64, all numbers of decimals", "why_tests_cant": "The claim is about every float64 and every text. Rounding twice, once to decimals and once back to binary, fails if at all on single values among 2^64, at halves and near powers of two.", "anchors": ["utils/commonutils/common.go:29-39", "utils/klines/kline_type.go:89-91"]}
{"id": "C146", "title": "The text of a candle tells its instant, direction and prices", "statement": "The time in the text of a candle is 1970-01-01 00:00:00 for instant 0 and moves like a calendar clock with each second, leap years included, so on a clock that is never put back two instants never share a text. Two candles with the same text are of the same instant and direction, and each price, the volume and the change agree up to one unit of the last decimal printed. Refuted where the clock is put back: two candles with the same numbers have the same text exactly if the instants differ by the change of the clock, as on the last Sunday of October.", "quantifier": "all instants before and after 1970, all candles with float64 numbers, all time zones", "why_tests_cant": "A wrong leap rule or a field printed too short shows only at single dates; that no two of infinitely many texts coincide cannot be sampled.", "anchors": ["utils/klines/kline_type.go:89-91"]}
{"id": "C147", "title": "Smart Money Concepts in another unit of price", "statement": "If all prices of a series are multiplied by one positive number (and the volumes by any number), a Smart Money Concepts computation returns exactly when it returned before, and finds the same structure with its prices multiplied by that number: the same break and change-of-character lines on the same candles, the same order blocks, the same strong and weak levels. (The code violates this for lows above 99999999, because the search for the lowest low starts at that literal; it holds when the lows are at most 99999999 in both units.)", "quantifier": "all parameters, all series, all positive factors", "why_tests_cant": "tests use one series in one unit; the literal only matters for markets quoted in very small units (for example a coin in rupiah)", "anchors": ["trend/SmartMoneyConcepts.go:440-501", "trend/SmartMoneyConcepts.go:150-437"]}
{"id": "C148", "title": "Smart Money Concepts: how a new candle changes the earlier records", "statement": "When one candle is added to a series, the records of the earlier candles keep their values. (The code violates this: a break of structure is drawn backwards from the swing to the candle that closed beyond it.) What holds: the times stay; for each of the eight kinds of structure lines the earlier records are unchanged before some candle, and from that candle on carry the value of the newest record, i.e. history changes only by a line that ends at the newest candle; the lines of equal highs and lows change it only by a line that ends EQHEQL_BarsConfirmation candles before the newest one.", "quantifier": "all parameters, all series and all next candles for which both computations return", "why_tests_cant": "tests compute one series once; a backtest on the complete series uses lines that were not there at the time", "anchors": ["trend/SmartMoneyConcepts.go:241-334", "trend/SmartMoneyConcepts.go:374-405", "trend/SmartMoneyConcepts.go:126-438"]}
{"id": "C149", "title": "Printed candles sort as texts in the order of time", "statement": "Between the years 0 and 9999 the time text of one instant comes before that of another, compared character by character, exactly if the instant does. So on a clock that is never put back the lines printed for the candles of a series come back in the order of the series by sorting them as texts, however they were mixed up and whatever their prices are. Refuted outside those years, before and after, and where the clock is put back.", "quantifier": "all instants of the years 0 to 9999, all series of candles ordered by time, all prices, all clocks that are never put back, all orders of the lines", "why_tests_cant": "Sorting goes wrong at single boundaries: where a field gains a digit, at the ends of months and leap years, at the change of the clock. A sample of instants misses them; the claim is about every pair of instants and every permutation of every series.", "anchors": ["utils/klines/kline_type.go:89-91"]}
{"id": "C150", "title": "Padding a series more than once", "statement": "Padding a padded series again over the same window, or over a shorter one with the same start, gives what padding the original series over that window gives, with and without purging; so padding twice is padding once, and with purging too. Over a longer window the padded series gets one empty candle per further slot. Refuted: padding in stages over growing windows is not padding once, because candles behind the first window are dropped without an error.", "quantifier": "all series with strictly increasing times, all intervals of whole seconds, all windows of one interval or more, any numeric type", "why_tests_cant": "The claim relates two runs for every series and every pair of windows; which candles are lost depends on where they lie relative to both window ends.", "anchors": ["utils/klines/kline.go:207-261"]}
{"id": "C151", "title": "Coarser candles made of a padded series", "statement": "Upscaling a gap-free series whose filled gaps are candles of prices 0 succeeds, and each coarse candle has the first open, the last close, the highest high and the sum of the volumes of its candles, empty ones included. Its low is the lowest since the last empty candle, 0 if the last candle is empty; its change is (close - open)/open, +Inf after an empty first candle with a later close and NaN if both ends are empty. Refuted: the low of a padded bucket is not the lowest price traded in it.", "quantifier": "all gap-free series of finite prices without negative lows, starting on a multiple of the new interval, all factors of 2 or more, any ordered field", "why_tests_cant": "Which lows are forgotten depends on where the empty candles fall in every bucket; a test fixes one pattern of gaps.", "anchors": ["utils/klines/kline.go:25-142", "utils/klines/kline.go:207-261"]}
{"id": "C152", "title": "Upscaling in two steps is upscaling at once", "statement": "Turning candles into candles r times as long and those into candles s times as long gives, candle for candle and field for field, what turning them into candles r*s times as long at once gives, also when candles are left over. On padded series every field but the low agrees, and the low by way of the interval in between is never higher; that it is the same is refuted.", "quantifier": "all gap-free series of finite prices, either with opens and lows that are not 0 or (all but the low) with lows that are not negative, starting on a multiple of the coarsest interval, all factors r, s >= 2 with r*s at most the length, any ordered field", "why_tests_cant": "The claim compares three runs for every series and every pair of factors, and every way the left-over candles can fall.", "anchors": ["utils/klines/kline.go:25-142"]}
{"id": "C153", "title": "Upscaling batch by batch", "statement": "Cut a series after a whole number of coarse candles: upscaling both parts and putting the results one after the other gives the candles of the whole series upscaled, in every field, left-over candles at the end included. Refuted for other cuts: highs leak into the coarse candle before, coarse candles are missing and the last one is empty.", "quantifier": "all gap-free series of finite prices without negative lows, padded or not, starting on a multiple of the new interval, all factors of 2 or more, all cuts after one or more whole coarse candles with one or more behind them, any ordered field", "why_tests_cant": "The claim compares three runs for every series, factor and place of the cut.", "anchors": ["utils/klines/kline.go:25-142"]}
{"id": "C154", "title": "Upscaling a series that starts between two coarse candles", "statement": "The start is rounded to the nearest multiple of the new interval. If that is d candles later, the result is exactly that of the series without its first d candles (when at least d candles are left over); if it is d candles earlier, exactly that of the series with d empty candles in front (when those do not complete a further coarse candle). Refuted: the coarse candles cover the series - the first one can have open 0, traded candles are ignored, and the last coarse candle can be empty.", "quantifier": "all gap-free series whose start is a whole number of candles away from a multiple of the new interval, all factors, any numeric type (rounding down: 0 + 0 = 0)", "why_tests_cant": "The claim compares two runs for every series, factor and offset of the start.", "anchors": ["utils/klines/kline.go:48-136", "utils/klines/kline.go:280-330"]}
{"id": "C155", "title": "One coarse candle too many or too few", "statement": "The number of coarse candles is counted from the length of the series, not from the rounded start. If the start is d candles before a multiple and fewer than d candles are left over, the result is that of the whole coarse candles alone, followed by an empty candle; if no whole coarse candle is there, one coarse candle without a close. If the start is d candles after a multiple and the left-over candles complete another coarse candle, that one is missing; the others are those of the series with d empty candles in front, except for the high and low of the last. Refuted: the high of a coarse candle comes from its own candles.", "quantifier": "all gap-free series whose start is a whole number of candles away from a multiple of the new interval, all factors, any numeric type (too few: 0 + 0 = 0)", "why_tests_cant": "The claim compares two runs for every series, factor, offset of the start and number of left-over candles.", "anchors": ["utils/klines/kline.go:48-136"]}
