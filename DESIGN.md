# Formal model of idoall/stockindicator

A Lean 4 model of the Go library in `/repo`, with a machine-checked proof for each entry of
`properties.jsonl`. The code was read as text; it was neither built nor run.

## 1. How the code is modelled

**Execution.** A Go function becomes a Lean function into `Go a = Except Panic a`
(`Verif/Go/Basic.lean`). A run-time panic (index out of range, integer division by zero, negative
`make`, explicit `panic(..)`, nil dereference) is the value `Except.error p`, never a default value.
Counting `for` loops become `goFor n init body`: the same body, run with the loop index, over
explicit state. Slices that are only read or written by one owner are `List`s; writes are
`setAt`, reads are `idx`, both bounds-checked. Where aliasing is part of the claim (C10, C60) the
model has an explicit heap: candle pointers in `Verif/Klines/Heap.lean`, float slices in
`Verif/Ta/Heap.lean`, tree nodes in `Verif/Container/BstHeap.lean`, strategy objects in
`Verif/Ind/Run.lean`, record slices in `Verif/Ind/RecHeap.lean`. Loops without a counter (tree descent, C98) carry a round budget; running out of
it is a third outcome beside a value and a panic, and the theorems show it does not occur.

**Numbers.** `float64` is an abstract type `F` with the operations of class `GoFloat`
(`Verif/Go/Num.lean`): `+ - * /`, comparisons as Booleans, conversion from `int`, decimal literals,
`IsNaN`, `IsInf`, `Abs`, `Max`, `Min`. The class has no laws.

* Structural theorems (length, alignment, causality, panic boundary, signal logic, call histories)
  are proved for *every* `F`, so they also hold for real IEEE float64.
* Order theorems (search tree, window extremes, pivots) assume only that `<` is a strict weak order
  on the values used (`OrdKey`), which holds for all float64 values except NaN.
* Numeric theorems are proved for `XF K`: an ordered field `K` extended with `+Inf`, `-Inf`
  and `NaN`, with the IEEE rules for special values (`x/0`, `Inf-Inf`, comparisons with NaN, ...).
  Simplification: exact arithmetic on finite values, i.e. no rounding, overflow, or signed zero.
* Float64 theorems (C99 on) are proved for `B64` (`Verif/Go/Binary64.lean`): IEEE 754 binary64 as sign, rational
  magnitude of the representable form `m 2^e`, infinities and NaN, with rounding to nearest even, subnormal numbers,
  overflow and signed zero. `B64` is an instance of `GoFloat`, so the *same* model of the Go code runs on it. Proved
  about it: every result is representable, rounding goes to a nearest number (of two, to the even one), is monotone,
  has the usual error bounds, and overflows exactly from half a unit above the greatest number on (`Verif/Go/Ieee.lean`).
  In `B64` every operation is rounded separately. The Go compiler does so on amd64 with the default `GOAMD64=v1`; on
  arm64 and others it may fuse `x*y + z`. `Fused c` (`Verif/Go/Fused.lean`), another instance of `GoFloat`, is float64
  with fusing: a product remembers its factors and `c` decides for each of its sums; C122 quantifies over all `c`.
  Simplification: two sums whose operands were computed in the same way are fused alike.
  `F53` (`Verif/Go/Float53.lean`) is float64 without the limits of the exponent; C124 is about it.
  `math.Sqrt` is the correctly rounded root (proved against `Real.sqrt`, `Verif/Go/Math64.lean`) and `math.Round` is
  exact. `math.Atan` and `math.Pow`, of which no accuracy is promised, are parameters (`B64.MathLib`); a theorem that
  needs one of their values has it as a hypothesis.

**int.** Go `int`/`int64` is `Int`; wrap-around at 2^63 is not modelled.

**Time.** An instant is an `Int` number of nanoseconds since the Unix epoch; `Time.Round` follows the
Go documentation (rounds half up, relative to the zero time 1 January year 1). `Sub`, which saturates at about 292 years,
is exact in `Verif/Klines/Ranges.lean`; `Ranges64` is the same code with saturation and a float64 number of requests, and C13_machine and C97_machine say when the two agree. `Convert64` does the same for upscaling, with `Duration.Seconds` in float64 (C15_machine).

**Goroutines.** Channels and goroutines are a labelled transition system
(`Verif/Conc/`): every goroutine is a deterministic automaton whose next action is a
receive, a send, a close or halt; channels have a capacity, a buffer and a closed flag; unbuffered
channels are rendezvous. A theorem about "every schedule" quantifies over all sequences of steps.

## 2. Trusted base

* Lean 4.33 kernel; axioms `propext`, `Classical.choice`, `Quot.sound` only (no own axioms,
  no `sorry`, no `native_decide`, no `bv_decide`).
* The reading of the Go source: each model definition cites the file and lines it models.
* The Go semantics stated above and the documented behaviour of `sort.Slice`, `container/list`,
  `math.Max/Min/Abs/Sqrt`, `time.Round`, maps, and channels.

**Not modelled:** float rounding/overflow/signed zero in the numeric theorems before C99, fused multiply-add outside C122, JSON and file input
(`commonutils.ReadFile`, `JSONDecode`, `helper.go`), the inside of package
`shopspring/decimal` and of `strconv`, callers that write into
a returned slice, memory and performance, the text of numbers and times in `main.go`.

## 3. Modules

* `Verif/Go/`: execution model, loop rules, float interface, exact arithmetic `XF`, IEEE binary64 (`Binary64`, `Ieee`, `Math64`), package `math` over the reals.
* `Verif/Spec.lean`: vocabulary of the statements (mean, population variance, windows); mentions no model function.
* `Verif/Container/`: queue, search tree as an inductive type (`Bst`), the same code on nodes and pointers (`BstHeap`), on `interface{}` values (`Dyn`).
* `Verif/Conc/`: channels and goroutines (`Net`), the goroutines of `helpertools` (`Helper`).
* `Verif/Klines/`: candles, date ranges, upscaling, padding, filters in memory, derived columns.
* `Verif/Ta/`: `utils/ta/ta.go` and `utils/regression.go`, each function with its closed form on tables.
* `Verif/Ind/`: one `Calculation` and `AnalysisSide` per indicator (`Trend`, `Trend2`, `Trend3`, `Channel`, `Osc`, `Volume`,
  `Smc`), closed forms of the signals (`Signals`), value lists (`Values`), default constructors (`Defaults`), names (`Names`), objects
  that can be cleared (`Lifecycle`), running several strategies (`Run`), objects made from columns (`Columns`), order blocks (`Blocks`).
  Constructors and `GetData` have the same shape in every file of the library; they are modelled once, in `Core`
  (`Indicator`, `Obj`, `ensure`), and instantiated per indicator.
* `Verif/Props/`: the property theorems, named after the entries of `properties.jsonl`, each followed by an
  `example` that meets its hypotheses.

## 4. Properties: what is modelled and how it is proved

The plan per property; the state actually reached is in `MANIFEST.json`.

* **C01 Search tree behaves as a multiset.** Tree as an inductive type, `Insert`/`Remove`/`removeNode` line by line; weak search-tree invariant (left <= node <= right) + multiset of elements; induction over the operation list.
* **C02 Sliding maximum and minimum are the true window extremes.** Loop with ring buffer and tree; invariant: tree multiset = current window; corollary of C01.
* **C03 Queue is first in first out.** State machine over operations; refinement to a list queue.
* **C04 Slice to channel and back is the identity under every schedule.** Transition system; one-step diamond property of single-reader/single-writer networks + one explicit complete schedule => every schedule terminates in the same final state.
* **C05 Stream combinators compute their list meaning under every schedule.** As C04, one network per combinator.
* **C06 Streaming SMA is schedule independent and equals the list formula.** As C04, five-process network; list formula then proved equal to the window sums.
* **C07 Duplicate outputs consumed one after the other.** The claim is false for unbuffered inputs: reading one output to the end blocks. Refuted by an explicit stuck state; the lock-step consumer is proved to work (`_partial`).
* **C08 CheckEquals is equality of streams.** Pure function on finite streams; one pair proved; several pairs refuted with a witness.
* **C09 RemoveOutsideRange is exactly the interval filter.** Loop with in-place writes; equality with `List.filter`.
* **C10 RemoveOutsideRangeCopy never changes the original.** Heap of candles; frame theorem for later writes.
* **C11 RemoveDuplicates keeps the first candle per timestamp.** Loop with lookup map; characterisation and idempotence.
* **C12 Sorting candles by timestamp.** `sort.Slice` as any ordered permutation; the flag is inverted in the code, so the documented direction is refuted and the actual one proved.
* **C13 Date ranges tile the requested window.** Loop model on Int instants; invariant over ranges.
* **C14 Freshly computed ranges report no data and never lose an instant.** Scan model; membership characterisation from C13.
* **C15 Upscaling candles conserves the market data.** Loop model; proved for lengths that leave no remainder (`_partial`); trailing candles do change high/low of the last bucket: witness.
* **C16 Upscaling reports bad requests as errors.** Case analysis of the guards; panics on empty and zero-time series: witnesses.
* **C17 Heikin-Ashi candles are well formed.** Pointwise; the `Low` line uses Max, so `low <= open` is refuted; rest proved.
* **C18 OHLC columns stay aligned with the candles.** Pointwise lemmas.
* **C19 Simple moving average equals the window mean.** Loop invariant sum = window sum.
* **C20 Rolling sum equals the window sum.** Loop invariant.
* **C21 Weighted moving average equals its weighted window formula.** Two coupled loop invariants.
* **C22 Variance is the population variance of the window and never negative.** Loop invariant on two totals; algebra for variance >= 0.
* **C23 Linear regression is the least-squares line of the window.** Loop invariants for sumY, sumXY; normal equations; sum-of-squares argument for optimality.
* **C24 Least-squares helpers minimise the squared error.** As C23 with explicit x.
* **C25 Exponential average stays inside the range of the data.** Induction with convexity.
* **C26 Rolling (Wilder) average.** Recurrence proved; the documented warm-up is refuted (index 0 is skipped).
* **C27 True range dominates every price move.** Pointwise maxima.
* **C28 Average true range is a non-negative Wilder average with an exact panic boundary.** Loop invariant; panic boundary.
* **C29 Element-wise helpers never index out of range and never leak NaN from Divide.** Case analysis over special values.
* **C30 Shifting and differencing.** Pointwise.
* **C31 Positive and negative parts recombine.** Pointwise.
* **C32 Pivot detection reports exactly the window extremes.** Corollary of C01.
* **C33 Highest and Lowest of the last n values.** Loop invariant.
* **C34 Neighbourhood extreme search.** PivotMax starts from 0 and mishandles ties: refuted; what holds is proved.
* **C35 Cross detection is exclusive.** Case analysis, any F with asymmetric <.
* **C36 Indicators never look ahead.** `Causal` predicate closed under composition and zipping; each ta loop proved causal by a relational loop invariant.
* **C37 Indicator output is aligned with the candles.** Per indicator; the exceptions found in the code are refuted with witnesses.
* **C38 GetData is idempotent.** Object as state machine with cache; induction over call lists.
* **C39 Recalculation does not change the data.** Same state machine; append-style indicators double their data: witness.
* **C40 Signals are aligned with the candles.** Per strategy; zero value of Side is Buy, so the first candle is always Buy: refuted with witness, length proved.
* **C41 Crossing strategies signal exactly at crossings.** Per strategy decision function.
* **C42 Buy and sell signals alternate.** Refuted when the line is touched exactly; proved otherwise.
* **C43 RSI is a percentage.** Invariant gains, losses >= 0; panic at len = period.
* **C44 Stochastic oscillators are percentages.** C02 + field inequalities.
* **C45 KDJ lines stay in range.** Induction.
* **C46 Money flow index is a percentage.** C20 + inequalities; zero negative flow gives 0: refuted part.
* **C47 Chaikin money flow and volume-weighted averages stay in their natural range.** Window sums inequality.
* **C48 Channel bands bracket their centre line.** C02, C22.
* **C49 Bollinger strategy can sell.** Refuted: Sell is never emitted.
* **C50 On-balance volume is the signed volume sum.** Recurrence.
* **C51 Trailing stop only moves with the trend.** Step invariant.
* **C52 SuperTrend flips only when price crosses the band.** Step invariant.
* **C53 Breakout statistics are consistent.** Counter invariant.
* **C54 Camarilla levels are ordered.** Field inequalities.
* **C55 Signals do not depend on the price unit.** Relational invariants.
* **C56 Strategies run independently and in order.** Induction.
* **C57 Order-block bookkeeping keeps blocks unique.** Operation histories.
* **C58 Sides are distinguishable.** Case analysis on a 32-bit value.
* **C59 Ulcer index is non-negative.** Sums of squares.
* **C60 Replacing NaN.** Heap model of the slice.
* **C61 Bollinger bands are PeriodK deviations wide.** Refuted: `PeriodK` is ignored; exact width proved.
* **C62 Atr's true range is Wilder's.** Pointwise; refuted on a gap down, condition for equality proved.
* **C63 Directional indicators and ADX stay in range.** Loop invariants over the smoothed movements.
* **C64 Vortex indicators are window ratios.** C20.
* **C65 Breakout percentages are hit rates.** Counter invariants; the lower levels are refuted.
* **C66 ADX is the mean of the last DX values.** Invariant; after a still market ADX sticks at 0 (witness).
* **C67-C74 Smart Money Concepts.** The loop as a step function over an explicit state; invariants per part
  (`SmcInv`) and for the run (`SmcRun`); order laws only. Order-block counts, time stamps, strong levels, repeated
  reading and change-of-character lines each have a refuted half with a concrete run (`Props/SmcSeries`, `Props/SmcWit`).
* **C75, C76 Padding.** Loop invariant over slots; composition with C16.
* **C77 Exact number of candles an indicator needs.** Panic boundary of every constructor, law-free.
* **C78 Value lists agree with the records.** Pointwise.
* **C79 Reversal signals are nine-candle runs.** Counter invariant, law-free.
* **C80-C85, C88, C90 Closed formulas of the remaining lines.** Closed forms in exact arithmetic.
* **C86, C87, C89 Threshold, Camarilla and TraderXO signals.** Decision functions; counter invariant for C89.
* **C91-C94 Totals, regression angle, rounding, normalised range.** Algebra and order over the reals.
* **C95 Clear is final.** State machine over call histories with recovered panics.
* **C96 ComputeCCI.** Panic boundary and agreement with `AiCoinCCI`, law-free.
* **C97 Candle counts.** Integer division.
* **C98 The search tree with its pointers.** Refinement between memory and inductive tree; frame argument by addresses.
* **C109 The table of `main`.** Composition of C40, C56 and C77.
* **C110, C111 One NaN.** Absorption laws (`NanLaw`, proved for both arithmetics); induction along the closed forms.
* **C112 Run-time types in the search tree.** Dynamic values; refinement to the typed tree; kind invariant over call histories; rounds of the `Remove` loop counted.
* **C113 Objects built from columns.** Every rectangular table is the table of a series; loop invariants for ragged tables.
* **C99-C108 Float64 arithmetic.** Rounded results lie between representable bounds (`F64Base`), loop invariants on top;
  drift bounds by induction; refutations by evaluating the model on `B64`.
* **C114 Averages follow their data.** Rounded operations keep "not below"; induction along the closed forms.
* **C115 How far back an indicator looks.** Closed forms are functions of the last `w` candles; a predicate `Local` closed under composition.
* **C116 Fading memory.** A predicate `Fade` (bounded on bounded data, and ε-close after `w` common candles) closed under sums, scalings and exponential smoothing; exact rate for Ema; Rsi refuted; running totals keep their offset.
* **C117 Upside down.** Each price `a` becomes `m - a`; exact closed forms are affine or quotients of differences; signals by cases on the rules. Ranges, Rsi signals and trailing stops refuted.
* **C118 Shifts.** A shift is two reflections; Rsi and Atr directly.
* **C119 Names.** `%d` is injective and self-delimiting before a non-digit; letters in front determine the type.
* **C120 Signs in float64.** Two different binary64 numbers differ by a multiple of the smallest one; rounding is monotone.
* **C121 Stops in float64.** `math.Max` and rounding are monotone for all values; ranges are not negative.
* **C122 Fused multiply-add.** Number by number: sums of numbers that are not pending products, and products with -1, are
  the same however they are fused; where they are not, one rounding of the exact product keeps the bounds of two.
* **C123 Columns read.** From the closed forms, which mention only those columns; a witness for each column that none is superfluous.
* **C124 Units in floating point.** Rounding to 53 bits commutes with powers of two, which makes C55's abstract change of unit apply; float64 agrees operation by operation in the normal range.
* **C125 Decimal rounding.** A result half a decimal unit off would be a float64 neighbour of the value with the decimal halfway between, which parity excludes; hence rounding twice is rounding once.
* **C126 Still market.** Averages and windows of a constant are the constant; what remains are warm-up ramps (Chaikin, Heat) whose sign never changes. Negations by evaluation, and for ProjectionOscillator for every bar. Window extremes of equal numbers are that number in any arithmetic; Wilder's recursion from zero changes stays at zero in float64.
* **C127 Uptick.** The two series agree but for one candle; each line is its old value plus a share of the rise that is not negative, which averages, sums and differences preserve. A crossing then needs only that one line rises by no more than the other. CCI and Bollinger bands: a quantity above its mean by a multiple of the deviation stays so when it rises. Negations by evaluation on small series.
* **C128 One quantity, several files.** Closed forms compared: identical expressions for the first group, the textbook formula of each side for the second.
* **C129 Padded gaps.** The closed forms at a candle of zeros; the line after it by induction or by the window that contains it.
* **C130 Nearby feeds.** Means, exponential averages, extremes and Wilder's average are 1-Lipschitz in the greatest difference; the deviation by Minkowski's inequality. The jumps by one or two candles whose range is the error itself.
* **C131 Coarser candles** (Props/Coarse.lean). `Regular t0 e bs` describes candles an interval apart, `Coarse r bs bs'` the bars that r
  fine ones merge into. Two conversions equal one (exact arithmetic), and three lines that read highs and lows see on coarse candles with
  period p what they see on fine ones with period p*r. Refuted: the Donchian channel (it reads closes), and two conversions in float64.
* **C132 Signals on which two nearly equal feeds cannot disagree** (Props/StableSides.lean). `AgreesBeyond m I a b`: wherever the two
  compared lines are more than m*e apart at the candle and the one before, a feed within e gives the same signal. Built on C130 and on the
  crossing form of the strategies (C41). Refuted without the margin.
* **C133 Cleaning a downloaded series** (Props/Clean.lean). On the heap model of C09-C12: the steps that drop candles commute and are
  idempotent as a set (`runOps_clean` gives the result in terms of the set of steps); overlapping pieces in any order give the series.
* **C134 Indicators on Heikin-Ashi candles** (Props/HeikinAshi.lean). `haBars` is the list of Heikin-Ashi bars; `C134_bars` shows that
  `ToHeikinAshi` produces it, which transports every theorem stated with `Holds`. Units, shifts, nearby feeds, higher prices, range, and
  what the missing volume does to the volume indicators.
* **C135 markets that only rise or only fall** (`Props/Rising.lean`): order of exponential averages on a column that never falls; from it, no `Sell` from the trend-following strategies, by reflection no `Buy` on a market that never rises; `UTBot` and `SuperTrend` from their stops; refutations for the oscillators and for `SuperTrend` with closes in the lower half.
* **C136 (changing series).** `Ind/Live.lean` adds a small event model: the item an object was made from changes, and
  `GetData`, `AnalysisSide`, `Calculation` are called in any order. `see` says what an object reads after a change: the new
  item for structs with a pointer, the old columns for structs that copied them. `Props/Live.lean` proves that copying types
  never notice a change, that a filled cache never changes without `Calculation`, and what pointer types answer after the
  series has grown (`Buy` for every new candle) or shrunk (index panic), with and without a call of `Calculation`.
* **C137 longer windows, larger multipliers** (`Props/Nesting.lean`): from the window theorems C02 and C32, for every number
  type with ordered comparisons; `WilliamsR` from C44; concrete markets against the multipliers of `UTBot` and `SuperTrend`.
* **C138 copies kept from before a cleaning** (`Props/KlineAlias.lean`): on the heap model, a second holder of `item.Candles`
  sees the kept candles followed by the old tail after `RemoveOutsideRange` or `RemoveDuplicates`, and nil pointers after `Clear`.
* **C139 from a raw feed to a full series** (`Props/Feed.lean`): the composition of C11, C09, C12 and C75. The heap model hands
  the shown candles to the by-value sort. The loop of `addPadding` on a list in descending order has its own invariant.
* **C140 (float64 tracks exact).** `emaF_track` follows the four roundings of one step of `Ema` and the damping of earlier
  errors. The bound `(p+1) 2^(k-51)` does not depend on the length. Comparisons of lines further apart than their errors
  come out alike, which gives equal signals for TraderXO, AbsolutePriceOscillator and Macd.
* **C141 (the records in memory).** `Ind/RecHeap.lean` gives the record slices backing arrays and lets `append` choose any
  capacity. `C141_refines` ties it to the model without memory. Not modelled: a slice the caller has re-sliced so that it
  starts later, and concurrent writes.
* **C142 The text of an interval** (`Verif/Klines/Duration.lean`, `Verif/Props/IntervalName.lean`): `Interval.String` is
  `time.Duration.String`, modelled from the source of the standard library (`fmtFrac`, `fmtInt`, the units). A separate reader of
  "numbers with units" gets back exactly the interval from the text (`C142_read_back`), so texts are unique (`C142_injective`).
* **C143 Wilder averages in float64** (`Verif/Props/F64Wilder.lean`): one rounded step of a Wilder average is within a fixed
  multiple of `2^(k-54)` of the exact step and the recursion contracts, so the error of `ta.Rma`, of the average true range and of the
  Keltner lines has a bound without the length of the series (`C143_rma`, `C143_atr`, `C143_keltner_lines`); from it the signals of
  Keltner, Awesome and EMAVegas are the exact ones outside the margins (`C143_keltner`, `C143_awesome`, `C143_vegas`).
* **C144 Trailing stops in float64** (`Verif/Props/F64StopTrack.lean`): the relation "same direction, stops within `E`" between the
  float64 and the exact run is kept by every candle whose close is more than `E` from the exact stops (`C144_utbot`,
  `C144_supertrend`). SuperTrend is covered for `changeAtr = true`.
* **C145 Numbers as text** (`Verif/Klines/CandleText.lean`, `Verif/Props/NumberText.lean`): `%f` is the nearest multiple of a power of ten with halves
  to even, `ParseFloat` the nearest float64 of the exact decimal number. Round trip: the printed number is nearer to the float64 than half a unit,
  and the float64 read back is at least as near to the printed number as the first one, so printing again gives the same digits
  (`halfEven_stay`). Not modelled: hexadecimal texts and underscores.
* **C146 Text of a candle** (`Verif/Props/CandleText.lean`): the calendar arithmetic of package `time` is inverted by a formula for the instant of a
  reading; the carry rule `tick` is the specification. The time zone is a function from instants to seconds ahead of UTC.
* **C147 Smart Money Concepts in another unit** (`Verif/Ind/SmcUnits.lean`, `Verif/Props/SmcUnits.lean`): two runs side by side, one on
  the converted candles; every function of the loop preserves "the second state is the converted first state". The bound on the lows is
  needed for the literal 99999999 in `obCoord`; exact arithmetic only.
* **C148 Smart Money Concepts with one more candle** (`Verif/Ind/SmcLater.lean`, `Verif/Props/SmcLater.lean`): the passes over the old
  candles do the same on the longer series (`step_more`); the last pass only draws lines that end at the newest candle (`step_changed`).

* **C149 order of printed candles** (`Verif/Props/TextOrder.lean`): texts are compared with `<` on lists of characters; within four-digit
  years a later reading of the calendar clock of C146 has a later text, and a sorted permutation of the lines is unique.
* **C150 padding again** (`Verif/Props/PadAgain.lean`): the slots of a filled series are its candles, then empty ones; both runs of
  `addPadding` then finish from the same table of slots.
* **C151 coarse candles over gaps** (`Verif/Props/PadCoarse.lean`): the proof of C15 with another invariant for the low, the lowest
  since the last low of 0; the sentinel 0 of the merge rule is also the price of an empty candle.
* **C152 two steps** (`Verif/Props/CoarseTwice.lean`): C15 for each of the three runs; extremes of extremes over buckets that cover the same
  candles, left-over ones included, and sums of sums. The description of a coarse candle in C15 determines every field.
  With the description of C151 the same works for padded series, except for the low (`C152_padded`).
* **C153 batches** (`Verif/Props/CoarseParts.lean`): C151 for the whole and for both parts; the description of a coarse candle is shifted by the
  length of the first part.
* **C154 start between two coarse candles** (`Verif/Props/CoarseStart.lean`): two runs over series that differ by `d` candles at the front; the
  first `d` passes of the longer one leave the state as it is, the other passes are the same.
* **C155 one coarse candle too many or too few** (`Verif/Props/CoarseEmpty.lean`): the main loop with one bucket more than the series fills, and with one
  bucket less; a candle after the end of a bucket changes its high and low only.

## 5. Where the code departs from what a user would expect

Each has a theorem; names in `MANIFEST.json`.

* `Boll` never sells (it compares the previous close with itself) and ignores `PeriodK` (C49, C61).
* `ToHeikinAshi` computes the low with `Max` (C17). `SortCandlesByTimestamp` sorts opposite to its flag (C12).
* Upscaling lets trailing candles into the last high and low, and panics on empty series (C15, C16).
* The first side of 23 of 24 strategies is Buy, the zero value of the type (C40).
* 26 `Calculation` methods append, so a second call doubles the data (C39). `Rma` returns two records per candle (C37).
* Money flow index is 0 where it should be 100 (C46); RSI keeps memory of old losses (C43); `Atr` ignores gaps down (C62).
* ADX sticks at 0 after a still market (C66). The conversion line of Ichimoku mixes two windows (C81).
* On a market whose candles are all equal `ProjectionOscillator` buys at every candle, `SuperTrend` and
  `PivotPointSuperTrend` sell once, and in float64 `Boll` buys at a flat 49.3 (C126).
* A higher price in the current candle can lower `Mfi`, `EaseOfMovement` and the lower Keltner line, and can turn the Buy of
  `SuperTrend` into Hold; `StochasticHeat` trades against the direction of its lines (C127).
* A candle that `addPadding` inserts is read as a price of 0: the negative volume index is 0 ever after (NaN after two), and
  Donchian and Keltner strategies buy at the next candle (C129).
* However little two feeds differ, the stochastic and Williams can be at opposite ends of their scales (C130).
* An object that was read before candles were appended reports `Buy` for every new candle; after candles were removed it
  panics; recalculating makes fifteen strategies panic (C136).
* A larger multiplier can make `UTBot` and `SuperTrend` trade more, and put the stop nearer to the price (C137).
* Heikin-Ashi candles have no volume, so the volume indicators are 0 on them (C134).
* `ProjectionOscillator` sells in rising markets (C88). `StochasticHeat` exceeds its plot (C85).
* `Duplicate` deadlocks when outputs are drained one after another (C07). `CheckEquals` misses unequal pairs (C08).
* `main` panics on fourteen candles and prints BUY eleven times in its first row (C109).
* One NaN price silences six strategies for good; `Sma` reports 0 ever after (C110, C111).
* `bst.Remove` loops for ever on a `Compare` that answers 2 (C112).
* `NewEMAVegasOHLC` without bull marks panics from twelve candles on (C113).
* The Vegas strategy never buys after its eleventh candle if the feed leaves `IsBullMarket` unset (C123).
* A downward gap does not count as range, so markets and their mirror images differ in `Atr` and Keltner bands (C117).
* `UTBot`, `SuperTrend`, `EMAVegas` and `LinearRegressionCandles` give one name to objects with different parameters (C119).
* `CalculateCandleDateRanges` and `TotalCandlesPerInterval` stop counting after 292 years (C13, C97).
* `HasDataAtDate` fails for the supported 100 ms interval (C14). Limit 0 loses 2^32 intervals (C13).
* On processors that fuse multiply and add (arm64), `Boll` is NaN at a flat 1.1, `PPO` shows a bar where its line equals its
  average, and `TraderXO` gives other signals than on amd64 (C122).
* In float64 `TraderXO` gives other signals on prices quoted in tenths of a unit (C124).
* In float64: `TraderXO` sells on a market flat at 0.1 (C103); `%D` leaves 0..100 by a rounding error (C102); `Vwma` and
  `ChaikinMoneyFlow` report quotients of rounding errors once the volume has stopped (C105), `MoneyFlowIndex` a value of 200 (C107); on a market flat at 1.3 the
  bands of `Boll` are NaN (C106); `RoundDigits(2.675, 2)` goes to the farther decimal (C108).
* A series sorted with `SortCandlesByTimestamp(false)`, documented as ascending, makes `addPadding` fail, or lose all candles but the
  latest (C139). Copies of an item kept from before a cleaning change with it (C138).
* `FloatFromString` accepts `NaN` and `Inf` without an error; the text of a candle shows prices below 0.0000005 as zero, and two candles an hour
  apart have the same text when the clock is put back (C145, C146).
* `SmartMoneyConcepts` reports another bullish order block for a market whose lows are above 99999999 in its unit (C147).
* `SmartMoneyConcepts` changes the records of earlier candles when candles are added: lines are drawn backwards (C148).
* `ConvertToNewInterval` refuses a complete series of more than 292 years as not padded (C15).
* Lines printed with `Candle.String` do not sort by time outside the years 0 to 9999, nor across the hour in which the clock is put back
  (C149).
* `addPadding` drops the candles behind its window without an error, so padding in stages over growing windows loses them (C150).
* Upscaling a padded series forgets every low before an empty candle, and gives open, low or close 0 to a coarse candle that begins or
  ends with one, with a change of `+Inf` or NaN (C151).
* On padded series the low of a coarse candle depends on whether it was made at once or by way of an interval in between (C152).
* Upscaling batches that are not whole numbers of coarse candles loses coarse candles and leaves an empty one at the end (C153).
* A series that starts between two coarse candles loses its first candles, or gets a first coarse candle with open 0 and an infinite change;
  the last coarse candle can be empty although there were trades (C154).
* The coarse candles are counted from the length of the series. When the start is rounded, the count can be one too many (an empty candle at the end)
  or one too few (a whole coarse candle is missing, and its high and low go into the candle before) (C155).
