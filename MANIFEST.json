{
 "claims": [
  {
   "property": "C01",
   "status": "proved",
   "theorems": [
    "Verif.Props.C01_bst_is_multiset",
    "Verif.Props.C01_nan_breaks",
    "Verif.Props.C01_int64_tree"
   ],
   "note": "Functional model of the tree; the second theorem shows why NaN is excluded."
  },
  {
   "property": "C02",
   "status": "proved",
   "theorems": [
    "Verif.Props.C02_max_window",
    "Verif.Props.C02_min_window",
    "Verif.Props.C02_panic_boundary"
   ],
   "note": "Order facts for all non-NaN values of any float type with a linear order key."
  },
  {
   "property": "C03",
   "status": "proved",
   "theorems": [
    "Verif.Props.C03_queue_fifo"
   ],
   "note": "container/list is trusted to be a sequence."
  },
  {
   "property": "C04",
   "status": "proved",
   "theorems": [
    "Verif.Props.C04_roundtrip"
   ],
   "note": "Delivers: every execution is finite, none panics or blocks, all goroutines end, result is xs."
  },
  {
   "property": "C05",
   "status": "proved",
   "theorems": [
    "Verif.Props.C05_apply",
    "Verif.Props.C05_shift",
    "Verif.Props.C05_skip",
    "Verif.Props.C05_roundDigits",
    "Verif.Props.C05_operate",
    "Verif.Props.C05_operate_stateful"
   ],
   "note": "All schedules; counts >= 0."
  },
  {
   "property": "C06",
   "status": "proved",
   "theorems": [
    "Verif.Props.C06_smaT_schedule",
    "Verif.Props.C06_smaT"
   ],
   "note": "Law-free schedule independence, then the exact window formula; T = float64."
  },
  {
   "property": "C07",
   "status": "partial",
   "theorems": [
    "Verif.Props.C07_sequential_refuted",
    "Verif.Props.C07_sequential_partial",
    "Verif.Props.C07_concurrent"
   ],
   "note": "False as stated: two or more outputs of a non-empty input drained one after another deadlock under every schedule. Proved: at most one output, empty input, and concurrent consumers for any count."
  },
  {
   "property": "C08",
   "status": "partial",
   "theorems": [
    "Verif.Props.C08_odd",
    "Verif.Props.C08_one_pair_partial",
    "Verif.Props.C08_one_pair_eq_partial",
    "Verif.Props.C08_several_pairs",
    "Verif.Props.C08_equal_pairs",
    "Verif.Props.C08_same_length",
    "Verif.Props.C08_nil_means",
    "Verif.Props.C08_several_pairs_refuted",
    "Verif.Props.C08_no_channels_refuted"
   ],
   "note": "False for several pairs (a pair that ends hides later places of the others) and for zero channels (never returns). Proved instead: the exact answer for any number of pairs, that equal pairs always give nil, that nil means equal pairs when all streams have one length, and what a nil answer vouches for in general."
  },
  {
   "property": "C09",
   "status": "proved",
   "theorems": [
    "Verif.Props.C09_filter"
   ],
   "note": "Heap model of RemoveOutsideRange with its in-place re-slicing."
  },
  {
   "property": "C10",
   "status": "proved",
   "theorems": [
    "Verif.Props.C10_copy_is_independent"
   ],
   "note": "Any sequence of client writes to the copy leaves the original item unchanged."
  },
  {
   "property": "C100",
   "status": "proved",
   "theorems": [
    "Verif.Props.C100_rsi"
   ],
   "note": "IEEE binary64; closes up to 2^900 so that sums cannot overflow."
  },
  {
   "property": "C101",
   "status": "proved",
   "theorems": [
    "Verif.Props.C101_sum_exact",
    "Verif.Props.C101_sum_refuted"
   ],
   "note": "Exact under the 53-bit bound; C101_sum_refuted shows the bound is needed."
  },
  {
   "property": "C102",
   "status": "partial",
   "theorems": [
    "Verif.Props.C102_sum_drift",
    "Verif.Props.C102_sma_drift",
    "Verif.Props.C102_sma_refuted",
    "Verif.Props.C102_stochastic_d_partial",
    "Verif.Props.C102_stochastic_d_refuted"
   ],
   "note": "Error bounds proved for all lengths; staying inside the range of the inputs is refuted by concrete runs."
  },
  {
   "property": "C103",
   "status": "partial",
   "theorems": [
    "Verif.Props.C103_ema_range_partial",
    "Verif.Props.C103_ema_near",
    "Verif.Props.C103_ema_flat",
    "Verif.Props.C103_ema_constant_refuted",
    "Verif.Props.C103_traderXO_flat_refuted"
   ],
   "note": "Proved for interval ends with few bits, and for any data up to an error that does not grow with the series; the range of the data itself is refuted."
  },
  {
   "property": "C104",
   "status": "proved",
   "theorems": [
    "Verif.Props.C104_donchian",
    "Verif.Props.C104_atr",
    "Verif.Props.C104_keltner",
    "Verif.Props.C104_camarilla"
   ],
   "note": "IEEE binary64; prices up to 2^900."
  },
  {
   "property": "C105",
   "status": "partial",
   "theorems": [
    "Verif.Props.C105_obv_exact",
    "Verif.Props.C105_obv_refuted",
    "Verif.Props.C105_vwma_partial",
    "Verif.Props.C105_vwma_refuted",
    "Verif.Props.C105_cmf_refuted"
   ],
   "note": "Exact on grids; refuted for decimal prices and volumes. The money flow line is only refuted."
  },
  {
   "property": "C106",
   "status": "partial",
   "theorems": [
    "Verif.Props.C106_boll_order_partial",
    "Verif.Props.C106_boll_flat_partial",
    "Verif.Props.C106_boll_flat_refuted"
   ],
   "note": "Finite bands refuted: NaN on a market flat at 1.3. Proved: order of finite lines; flat markets at prices of few digits."
  },
  {
   "property": "C107",
   "status": "partial",
   "theorems": [
    "Verif.Props.C107_ulcer",
    "Verif.Props.C107_mfi_refuted"
   ],
   "note": "Ulcer index proved in full; range of the money flow index refuted by a witness (uses Pow(-1,-1) = -1)."
  },
  {
   "property": "C108",
   "status": "proved",
   "theorems": [
    "Verif.Props.C108_sd",
    "Verif.Props.C108_round_whole",
    "Verif.Props.C108_round_digits_refuted",
    "Verif.Props.C108_round_neighbour",
    "Verif.Props.C108_round_decimals",
    "Verif.Props.C108_round_monotone"
   ],
   "note": "SD in full. RoundDigits: exact for 0 digits; for up to 22 digits one of the two neighbouring decimals (math.Pow(10, d) = 10^d is a hypothesis for ta.RoundDigits; helpertools.RoundDigit multiplies and needs none). That it may be the farther one is C108_round_digits_refuted."
  },
  {
   "property": "C109",
   "status": "proved",
   "theorems": [
    "Verif.Props.C109_prints_iff",
    "Verif.Props.C109_rows",
    "Verif.Props.C109_first_row"
   ],
   "note": "Law-free: holds for every float arithmetic. Reading the input file and the text of numbers and times are not modelled."
  },
  {
   "property": "C11",
   "status": "proved",
   "theorems": [
    "Verif.Props.C11_first_per_timestamp"
   ],
   "note": "Heap model, in-place."
  },
  {
   "property": "C110",
   "status": "proved",
   "theorems": [
    "Verif.Props.C110_exponential",
    "Verif.Props.C110_running",
    "Verif.Props.C110_windows",
    "Verif.Props.C110_recover",
    "Verif.Props.C110_max_refuted"
   ],
   "note": "NanLaw (NaN absorbing, comparisons with NaN false) is an interface proved for XF and B64."
  },
  {
   "property": "C111",
   "status": "proved",
   "theorems": [
    "Verif.Props.C111_deaf",
    "Verif.Props.C111_utbot_recovers"
   ],
   "note": "Deaf lists the six strategies with the first index from which the claim holds."
  },
  {
   "property": "C112",
   "status": "proved",
   "theorems": [
    "Verif.Props.C112_one_kind",
    "Verif.Props.C112_panic_iff",
    "Verif.Props.C112_poison",
    "Verif.Props.C112_spin_refuted"
   ],
   "note": "Dynamic values with the type switch and assertions of Compare; Remove with a bounded number of rounds so that not returning can be stated."
  },
  {
   "property": "C113",
   "status": "proved",
   "theorems": [
    "Verif.Props.C113_columns_are_candles",
    "Verif.Props.C113_closes_and_times",
    "Verif.Props.C113_vegas_bull",
    "Verif.Props.C113_supertrend_hl2"
   ],
   "note": "Constructors New...OHLC; the panic conditions for ragged columns are given for Dema, TraderXO, EMAVegas (exact) and SuperTrend (hl2 argument)."
  },
  {
   "property": "C114",
   "status": "proved",
   "theorems": [
    "Verif.Props.C114_ema",
    "Verif.Props.C114_rma",
    "Verif.Props.C114_ma",
    "Verif.Props.C114_ema_numbers",
    "Verif.Props.C114_ema_indicator",
    "Verif.Props.C114_sma_refuted"
   ],
   "note": "Monotone for Ema, Rma, MA and the EMA indicator in binary64; the claim about Sma by a witness."
  },
  {
   "property": "C115",
   "status": "proved",
   "theorems": [
    "Verif.Props.C115_averages",
    "Verif.Props.C115_extremes",
    "Verif.Props.C115_cci",
    "Verif.Props.C115_volume",
    "Verif.Props.C115_vortex",
    "Verif.Props.C115_regression",
    "Verif.Props.C115_ichimoku",
    "Verif.Props.C115_mfi",
    "Verif.Props.C115_boll",
    "Verif.Props.C115_aicoin_any",
    "Verif.Props.C115_sma_f64_refuted",
    "Verif.Props.C115_projection_refuted"
   ],
   "note": "Exact arithmetic, except AiCoinCCI (any arithmetic) and the two refutations. The period must be positive; LinearRegressionCandles only with a simple average as signal line and a length of at least 2."
  },
  {
   "property": "C116",
   "status": "proved",
   "theorems": [
    "Verif.Props.C116_ema",
    "Verif.Props.C116_differences",
    "Verif.Props.C116_sets",
    "Verif.Props.C116_atr",
    "Verif.Props.C116_kdj",
    "Verif.Props.C116_ema_rate",
    "Verif.Props.C116_ema_never",
    "Verif.Props.C116_rsi_refuted",
    "Verif.Props.C116_cumulative"
   ],
   "note": "Exact arithmetic. The Rsi clause is a refutation of fading, proved for every tail length."
  },
  {
   "property": "C117",
   "status": "proved",
   "theorems": [
    "Verif.Props.C117_averages",
    "Verif.Props.C117_sets",
    "Verif.Props.C117_channels",
    "Verif.Props.C117_ichimoku",
    "Verif.Props.C117_differences",
    "Verif.Props.C117_volume_lines",
    "Verif.Props.C117_cci",
    "Verif.Props.C117_directional",
    "Verif.Props.C117_percentages",
    "Verif.Props.C117_rsi",
    "Verif.Props.C117_signals",
    "Verif.Props.C117_atr_refuted",
    "Verif.Props.C117_rsi_signals_refuted",
    "Verif.Props.C117_trailing_refuted"
   ],
   "note": "Exact arithmetic; every line named in the statement, and refutations with concrete series for those that do not follow."
  },
  {
   "property": "C118",
   "status": "proved",
   "theorems": [
    "Verif.Props.C118_price_lines",
    "Verif.Props.C118_relative_lines",
    "Verif.Props.C118_rsi",
    "Verif.Props.C118_ranges",
    "Verif.Props.C118_signals",
    "Verif.Props.C118_refuted"
   ],
   "note": "Exact arithmetic; a shift is two reflections (C117), Rsi and the ranges directly."
  },
  {
   "property": "C119",
   "status": "partial",
   "theorems": [
    "Verif.Props.C119_names_partial",
    "Verif.Props.C119_hidden",
    "Verif.Props.C119_refuted"
   ],
   "note": "Proved for the 41 constructors that print all parameters; for the other six the exact ambiguity is proved and refuted by objects of one name with different results."
  },
  {
   "property": "C12",
   "status": "partial",
   "theorems": [
    "Verif.Props.C12_sort_partial",
    "Verif.Props.C12_direction_refuted"
   ],
   "note": "Sorting is a permutation ordered opposite to the documented flag; the direction claim itself is refuted by a witness."
  },
  {
   "property": "C120",
   "status": "proved",
   "theorems": [
    "Verif.Props.C120_differences",
    "Verif.Props.C120_signals",
    "Verif.Props.C120_percentages",
    "Verif.Props.C120_bound_needed"
   ],
   "note": "B64 model; differences for every float64 input. The quotient bound of the percentages is needed: Divide turns an infinite quotient into 0."
  },
  {
   "property": "C121",
   "status": "proved",
   "theorems": [
    "Verif.Props.C121_utbot",
    "Verif.Props.C121_utbot_side",
    "Verif.Props.C121_supertrend",
    "Verif.Props.C121_pivot"
   ],
   "note": "B64 model, no condition on the numbers; a stop that is NaN counts as not lowered."
  },
  {
   "property": "C122",
   "status": "proved",
   "theorems": [
    "Verif.Props.C122_lines",
    "Verif.Props.C122_signals",
    "Verif.Props.C122_ema",
    "Verif.Props.C122_rsi",
    "Verif.Props.C122_kdj",
    "Verif.Props.C122_atr",
    "Verif.Props.C122_keltner",
    "Verif.Props.C122_utbot",
    "Verif.Props.C122_utbot_side",
    "Verif.Props.C122_supertrend",
    "Verif.Props.C122_pivot",
    "Verif.Props.C122_differences",
    "Verif.Props.C122_traderXO_refuted",
    "Verif.Props.C122_boll_refuted",
    "Verif.Props.C122_ppo_refuted"
   ],
   "note": "For every choice of fused sums (Verif/Go/Fused.lean): equal lines and signals, and guarantees that survive. The refuted theorems give the lines and signals that do differ. Two sums whose operands were computed in the same way are fused alike."
  },
  {
   "property": "C123",
   "status": "proved",
   "theorems": [
    "Verif.Props.C123_columns",
    "Verif.Props.C123_signals",
    "Verif.Props.C123_needed",
    "Verif.Props.C123_needed_more",
    "Verif.Props.C123_vegas_flag",
    "Verif.Props.C123_vegas_needs_flag"
   ],
   "note": "ReadsCols lists the columns of 45 indicators, SidesRead those of 24 strategies. Any float arithmetic. C123_needed and C123_needed_more give a witness for every column of ReadsCols."
  },
  {
   "property": "C124",
   "status": "proved",
   "theorems": [
    "Verif.Props.C124_agrees",
    "Verif.Props.C124_sqrt_agrees",
    "Verif.Props.C124_price_lines",
    "Verif.Props.C124_ratios",
    "Verif.Props.C124_volume_lines",
    "Verif.Props.C124_signals",
    "Verif.Props.C124_rma",
    "Verif.Props.C124_math",
    "Verif.Props.C124_tenfold_refuted",
    "Verif.Props.C124_underflow_refuted"
   ],
   "note": "Stated for F53 (53 bits, unbounded exponent) and linked to float64 operation by operation (C124_agrees, C124_sqrt_agrees); there is no theorem that carries a whole float64 computation over at once. The two _refuted theorems show that the claim fails for a factor of ten and for subnormal numbers. EaseOfMovement, Rsi, StochRsi, Kdj, SuperTrend are not covered (see C55 for their cut-offs)."
  },
  {
   "property": "C125",
   "status": "proved",
   "theorems": [
    "Verif.Props.C125_nearest",
    "Verif.Props.C125_again",
    "Verif.Props.C125_monotone",
    "Verif.Props.C125_decimals",
    "Verif.Props.C125_overflow_refuted"
   ],
   "note": "The big-integer arithmetic of package shopspring/decimal is not part of the repository; the model takes its documented result: the nearest multiple of 10^exp, halves away from zero, then the nearest float64."
  },
  {
   "property": "C126",
   "status": "partial",
   "theorems": [
    "Verif.Props.C126_still_market_partial",
    "Verif.Props.C126_boll_mfi",
    "Verif.Props.C126_camarilla",
    "Verif.Props.C126_point",
    "Verif.Props.C126_any_arithmetic",
    "Verif.Props.C126_float64_rsi",
    "Verif.Props.C126_supertrend_refuted",
    "Verif.Props.C126_pivot_supertrend_refuted",
    "Verif.Props.C126_projection_refuted",
    "Verif.Props.C126_boll_float64_refuted"
   ],
   "note": "Exact arithmetic, any length and parameters, for all strategies but three; false for SuperTrend, PivotPointSuperTrend and ProjectionOscillator, and in float64 for TraderXO and Boll (witnesses). DonchianChannel, WilliamsR and IchimokuCloud hold in any arithmetic with an asymmetric comparison, Rsi and StochRsi in float64."
  },
  {
   "property": "C127",
   "status": "partial",
   "theorems": [
    "Verif.Props.C127_averages",
    "Verif.Props.C127_differences",
    "Verif.Props.C127_channels",
    "Verif.Props.C127_percentages",
    "Verif.Props.C127_volume_lines",
    "Verif.Props.C127_cci",
    "Verif.Props.C127_rsi",
    "Verif.Props.C127_relative_lines",
    "Verif.Props.C127_signals",
    "Verif.Props.C127_contrarian",
    "Verif.Props.C127_more_signals",
    "Verif.Props.C127_heat",
    "Verif.Props.C127_boll",
    "Verif.Props.C127_lines_refuted",
    "Verif.Props.C127_ppo_refuted",
    "Verif.Props.C127_signals_refuted"
   ],
   "note": "Exact arithmetic, any series, any rise of the last price. Fast periods must not exceed slow ones; the percentages, UTBot and StochasticHeat need closes within the range, Williams also ranges that are not empty, volume lines volumes that are not negative, PPO, NVI and VPT positive closes (PPO refuted without). CCI may have no value after the uptick where it had none before (0/0). RSI: not lower, or cut off to 0. False for the lines and signals named in the statement (witnesses on ordinary candles). StochRSI is not covered because of the cut-off of RSI."
  },
  {
   "property": "C128",
   "status": "proved",
   "theorems": [
    "Verif.Props.C128_same_lines",
    "Verif.Props.C128_boll_middle",
    "Verif.Props.C128_keltner",
    "Verif.Props.C128_williams",
    "Verif.Props.C128_kdj",
    "Verif.Props.C128_ppo",
    "Verif.Props.C128_regression",
    "Verif.Props.C128_boll_deviation",
    "Verif.Props.C128_atr",
    "Verif.Props.C128_cci",
    "Verif.Props.C128_atr_refuted",
    "Verif.Props.C128_cci_refuted",
    "Verif.Props.C128_base_line_refuted"
   ],
   "note": "First group in any arithmetic; the others in exact arithmetic, with the condition under which the two files part. The last three theorems are the differences."
  },
  {
   "property": "C129",
   "status": "proved",
   "theorems": [
    "Verif.Props.C129_padding",
    "Verif.Props.C129_nvi",
    "Verif.Props.C129_nvi_nan",
    "Verif.Props.C129_donchian",
    "Verif.Props.C129_stochastic",
    "Verif.Props.C129_obv",
    "Verif.Props.C129_ema",
    "Verif.Props.C129_atr",
    "Verif.Props.C129_ad",
    "Verif.Props.C129_vwma",
    "Verif.Props.C129_donchian_buys",
    "Verif.Props.C129_keltner_buys",
    "Verif.Props.C129_signals"
   ],
   "note": "Exact arithmetic. C129_signals lists the eight strategies on one series; the two band strategies are proved for all."
  },
  {
   "property": "C13",
   "status": "partial",
   "theorems": [
    "Verif.Props.C13_total",
    "Verif.Props.C13_ranges_tile_partial",
    "Verif.Props.C13_limit_zero_refuted",
    "Verif.Props.C13_machine",
    "Verif.Props.C13_saturation_refuted"
   ],
   "note": "Proved for every limit except limit 0 with 2^32 or more intervals, where it is refuted. C13_machine: the saturating time.Sub and the float64 number of requests make no difference below 292 years and 2^51 intervals; C13_saturation_refuted: above 292 years the ranges end early."
  },
  {
   "property": "C130",
   "status": "proved",
   "theorems": [
    "Verif.Props.C130_averages",
    "Verif.Props.C130_differences",
    "Verif.Props.C130_extremes",
    "Verif.Props.C130_ranges",
    "Verif.Props.C130_vwma",
    "Verif.Props.C130_bollinger",
    "Verif.Props.C130_stochastic",
    "Verif.Props.C130_jumps"
   ],
   "note": "Lipschitz bounds for the averages, bands and ranges; a bound with the range in the denominator for the stochastic; jumps for every error for the stochastic, Williams, CMF, AD and OBV."
  },
  {
   "property": "C131",
   "status": "proved",
   "theorems": [
    "Verif.Props.C131_two_steps",
    "Verif.Props.C131_windows",
    "Verif.Props.C131_donchian_refuted",
    "Verif.Props.C131_float64_refuted"
   ],
   "note": "Two conversions equal one in exact arithmetic; the high/low lines on coarse candles equal those with a longer period on fine ones; refuted for the Donchian channel (reads closes) and for volumes in float64."
  },
  {
   "property": "C132",
   "status": "proved",
   "theorems": [
    "Verif.Props.C132_crossings",
    "Verif.Props.C132_macd",
    "Verif.Props.C132_boll",
    "Verif.Props.C132_margin_refuted"
   ],
   "note": "Exact arithmetic (Bollinger over the reals). Margins 2e, 4e/2e and 3e; a witness shows that a margin is needed."
  },
  {
   "property": "C133",
   "status": "proved",
   "theorems": [
    "Verif.Props.C133_any_order",
    "Verif.Props.C133_windows",
    "Verif.Props.C133_windows_refuted",
    "Verif.Props.C133_sort",
    "Verif.Props.C133_pieces",
    "Verif.Props.C133_first_stays",
    "Verif.Props.C133_sort_first_refuted"
   ],
   "note": "Heap model of the item. Refuted: disjoint windows, and sorting before removing duplicates."
  },
  {
   "property": "C134",
   "status": "proved",
   "theorems": [
    "Verif.Props.C134_bars",
    "Verif.Props.C134_two_candles",
    "Verif.Props.C134_units",
    "Verif.Props.C134_near",
    "Verif.Props.C134_higher",
    "Verif.Props.C134_inside",
    "Verif.Props.C134_no_volume",
    "Verif.Props.C134_negative_volume",
    "Verif.Props.C134_textbook_refuted"
   ],
   "note": "Exact arithmetic except C134_two_candles (any arithmetic). Refuted: the textbook open and the meaning of IsBullMarket."
  },
  {
   "property": "C135",
   "status": "proved",
   "theorems": [
    "Verif.Props.C135_averages",
    "Verif.Props.C135_no_sell",
    "Verif.Props.C135_no_buy",
    "Verif.Props.C135_ut_bot",
    "Verif.Props.C135_super_trend",
    "Verif.Props.C135_super_trend_refuted",
    "Verif.Props.C135_oscillators_refuted"
   ],
   "note": "Exact arithmetic. SuperTrend only with the classic range (changeAtr true); the two refuted theorems give the markets where the claim fails."
  },
  {
   "property": "C136",
   "status": "proved",
   "theorems": [
    "Verif.Props.C136_copied",
    "Verif.Props.C136_frozen",
    "Verif.Props.C136_new_candles",
    "Verif.Props.C136_lost_candles",
    "Verif.Props.C136_recalculated",
    "Verif.Props.C136_recalculated_refuted",
    "Verif.Props.C136_new_candles_refuted"
   ],
   "note": "Law-free, for every number type. The item changes as a whole and only between method calls (no concurrent writers). C136_new_candles_refuted is a concrete market where a new object reports Sell and the object read earlier reports Buy."
  },
  {
   "property": "C137",
   "status": "proved",
   "theorems": [
    "Verif.Props.C137_extremes",
    "Verif.Props.C137_donchian",
    "Verif.Props.C137_pivot_high",
    "Verif.Props.C137_pivot_low",
    "Verif.Props.C137_williams",
    "Verif.Props.C137_multiplier_refuted",
    "Verif.Props.C137_stop_refuted"
   ],
   "note": "(a) and (b) for any OrdKey order, which XF and B64 both have; (c) over any ordered field; (d) is a refutation with concrete markets."
  },
  {
   "property": "C138",
   "status": "proved",
   "theorems": [
    "Verif.Props.C138_remove_outside_range",
    "Verif.Props.C138_remove_duplicates",
    "Verif.Props.C138_clear",
    "Verif.Props.C138_copy_refuted"
   ],
   "note": "On the heap model of candles. C138_copy_refuted is the concrete copy that changes."
  },
  {
   "property": "C139",
   "status": "proved",
   "theorems": [
    "Verif.Props.C139_feed",
    "Verif.Props.C139_documented_flag",
    "Verif.Props.C139_sort_first_refuted"
   ],
   "note": "Heap model for the two in-place steps, values for sorting and padding."
  },
  {
   "property": "C14",
   "status": "partial",
   "theorems": [
    "Verif.Props.C14_has_data_partial",
    "Verif.Props.C14_subsecond_refuted"
   ],
   "note": "Exact for intervals of whole seconds; refuted for the supported 100 ms interval."
  },
  {
   "property": "C140",
   "status": "proved",
   "theorems": [
    "Verif.Props.C140_ema",
    "Verif.Props.C140_trader_xo",
    "Verif.Props.C140_apo",
    "Verif.Props.C140_macd_lines",
    "Verif.Props.C140_macd"
   ],
   "note": "Error bound uniform in the length of the series. The gap is needed: C103 has a flat series on which TraderXO sells in float64. Fused multiply-add is not covered here."
  },
  {
   "property": "C141",
   "status": "proved",
   "theorems": [
    "Verif.Props.C141_refines",
    "Verif.Props.C141_write",
    "Verif.Props.C141_recalculated",
    "Verif.Props.C141_rebuilt",
    "Verif.Props.C141_two_appends",
    "Verif.Props.C141_overwritten"
   ],
   "note": "Record slices as windows into backing arrays; append may choose any capacity. Sides: the 19 strategies that keep the pointer to the item."
  },
  {
   "property": "C142",
   "status": "proved",
   "theorems": [
    "Verif.Props.C142_read_back",
    "Verif.Props.C142_injective"
   ],
   "note": "time.Duration.String of the standard library is modelled from its source (Go 1.21); the characters are a list, not a buffer of 32 bytes."
  },
  {
   "property": "C143",
   "status": "proved",
   "theorems": [
    "Verif.Props.C143_rma",
    "Verif.Props.C143_atr",
    "Verif.Props.C143_keltner_lines",
    "Verif.Props.C143_keltner",
    "Verif.Props.C143_awesome",
    "Verif.Props.C143_vegas"
   ],
   "note": "Over binary64 with correct rounding; error bounds that do not depend on the length of the series; signals agree outside the margins."
  },
  {
   "property": "C144",
   "status": "proved",
   "theorems": [
    "Verif.Props.C144_utbot",
    "Verif.Props.C144_supertrend"
   ],
   "note": "SuperTrend for changeAtr = true (the default, ta.Atr); integer multipliers as in the code."
  },
  {
   "property": "C145",
   "status": "partial",
   "theorems": [
    "Verif.Props.C145_reads",
    "Verif.Props.C145_rejects",
    "Verif.Props.C145_printed",
    "Verif.Props.C145_read_back",
    "Verif.Props.C145_again",
    "Verif.Props.C145_same",
    "Verif.Props.C145_order",
    "Verif.Props.C145_dust",
    "Verif.Props.C145_finite_refuted"
   ],
   "note": "All parts proved; partial because reading without an error does not exclude NaN and infinities (C145_finite_refuted) and small numbers vanish (C145_dust). Decimal texts; hexadecimal texts and underscores are not modelled."
  },
  {
   "property": "C146",
   "status": "partial",
   "theorems": [
    "Verif.Props.C146_clock",
    "Verif.Props.C146_instant",
    "Verif.Props.C146_candle",
    "Verif.Props.C146_put_back"
   ],
   "note": "Proved on clocks with a constant offset; C146_put_back says exactly where the texts coincide on other clocks, which refutes the claim for summer time."
  },
  {
   "property": "C147",
   "status": "partial",
   "theorems": [
    "Verif.Props.C147_smc_units",
    "Verif.Props.C147_smc_units_refuted"
   ],
   "note": "proved in exact arithmetic when the lows are at most 99999999 in both units; refuted beyond by a market whose bullish order block moves to candle 0"
  },
  {
   "property": "C148",
   "status": "partial",
   "theorems": [
    "Verif.Props.C148_smc_history",
    "Verif.Props.C148_smc_history_refuted"
   ],
   "note": "the exact way in which earlier records change is proved for every kind of number; that they never change is refuted by a series of 204 candles and its next one"
  },
  {
   "property": "C149",
   "status": "partial",
   "theorems": [
    "Verif.Props.C149_instants",
    "Verif.Props.C149_lines",
    "Verif.Props.C149_refuted"
   ],
   "note": "Proved for the years 0 to 9999 on a clock that is never put back; refuted outside those years on both sides and for the clock of Berlin in October 2024."
  },
  {
   "property": "C15",
   "status": "partial",
   "theorems": [
    "Verif.Props.C15_upscale_partial",
    "Verif.Props.C15_trailing_refuted",
    "Verif.Props.C15_machine",
    "Verif.Props.C15_seconds",
    "Verif.Props.C15_seconds_refuted",
    "Verif.Props.C15_long_refused"
   ],
   "note": "Exact for all buckets when the ratio divides the length; trailing candles leak into high/low of the last bucket (refuted by witness). C15_machine: the same function with int64 durations and float64 seconds. C15_long_refused: a complete series of more than 292 years is refused as not padded."
  },
  {
   "property": "C150",
   "status": "partial",
   "theorems": [
    "Verif.Props.C150_again",
    "Verif.Props.C150_longer",
    "Verif.Props.C150_purge",
    "Verif.Props.C150_stages_refuted"
   ],
   "note": "Same and shorter windows, longer windows and purging proved; that padding in stages equals padding once is refuted with a series whose later candle is lost. C150_purge assumes that 0 equals itself, which holds for exact numbers and float64."
  },
  {
   "property": "C151",
   "status": "proved",
   "theorems": [
    "Verif.Props.C151_gaps",
    "Verif.Props.C151_low_refuted"
   ],
   "note": "Over any ordered field, for series that start on a multiple of the new interval; the high and low of the last coarse candle also range over left-over candles, as in C15."
  },
  {
   "property": "C152",
   "status": "partial",
   "theorems": [
    "Verif.Props.C152_stages",
    "Verif.Props.C152_padded",
    "Verif.Props.C152_padded_refuted"
   ],
   "note": "Every field proved in exact arithmetic for series without empty candles; on padded series every field but the low, which is refuted by a witness and bounded on one side."
  },
  {
   "property": "C153",
   "status": "partial",
   "theorems": [
    "Verif.Props.C153_parts",
    "Verif.Props.C153_cut_refuted"
   ],
   "note": "Proved in exact arithmetic for cuts after whole coarse candles, padded series included; refuted for other cuts by a witness."
  },
  {
   "property": "C154",
   "status": "partial",
   "theorems": [
    "Verif.Props.C154_early",
    "Verif.Props.C154_late",
    "Verif.Props.C154_cover_refuted"
   ],
   "note": "Both directions of rounding reduced to series that start on a multiple (C15, C151), under the stated conditions on the left-over candles; that the result covers the series is refuted by a witness."
  },
  {
   "property": "C155",
   "status": "proved",
   "theorems": [
    "Verif.Props.C155_empty",
    "Verif.Props.C155_incomplete",
    "Verif.Props.C155_missing",
    "Verif.Props.C155_high_refuted"
   ],
   "note": "Completes C154: together they cover every gap-free series of at least one coarse candle's length whose start is a whole number of candles away from a multiple."
  },
  {
   "property": "C16",
   "status": "partial",
   "theorems": [
    "Verif.Props.C16_errors_partial",
    "Verif.Props.C16_gap_is_reported",
    "Verif.Props.C16_empty_refuted",
    "Verif.Props.C16_epoch_refuted",
    "Verif.Props.C16_gap_refuted"
   ],
   "note": "Complete error classification on non-empty series with set instants; empty series and epoch start panic, balanced gaps are not noticed."
  },
  {
   "property": "C17",
   "status": "partial",
   "theorems": [
    "Verif.Props.C17_heikin_ashi_partial",
    "Verif.Props.C17_low_refuted"
   ],
   "note": "All fields except that Low is not the minimum; refuted by a witness."
  },
  {
   "property": "C18",
   "status": "proved",
   "theorems": [
    "Verif.Props.C18_columns",
    "Verif.Props.C18_averages"
   ],
   "note": ""
  },
  {
   "property": "C19",
   "status": "proved",
   "theorems": [
    "Verif.Props.C19_sma_window_mean",
    "Verif.Props.C19_sma_period_zero",
    "Verif.Props.C19_sma_negative_period",
    "Verif.Props.C19_sma_total"
   ],
   "note": "Exact arithmetic for the mean; length and panic facts for every float type."
  },
  {
   "property": "C20",
   "status": "proved",
   "theorems": [
    "Verif.Props.C20_sum_window",
    "Verif.Props.C20_window_positions"
   ],
   "note": "Exact arithmetic."
  },
  {
   "property": "C21",
   "status": "proved",
   "theorems": [
    "Verif.Props.C21_wma"
   ],
   "note": "Exact arithmetic."
  },
  {
   "property": "C22",
   "status": "proved",
   "theorems": [
    "Verif.Props.C22_variance_window",
    "Verif.Props.C22_variance_nonneg",
    "Verif.Props.C22_stddev"
   ],
   "note": "Exact arithmetic; square root over the reals."
  },
  {
   "property": "C23",
   "status": "proved",
   "theorems": [
    "Verif.Props.C23_linear_regression"
   ],
   "note": "Exact arithmetic; the minimality is against every competing line."
  },
  {
   "property": "C24",
   "status": "proved",
   "theorems": [
    "Verif.Props.C24_least_square",
    "Verif.Props.C24_moving_least_square"
   ],
   "note": "Exact arithmetic."
  },
  {
   "property": "C25",
   "status": "proved",
   "theorems": [
    "Verif.Props.C25_ema_range",
    "Verif.Props.C25_ema_constant",
    "Verif.Props.C25_ema_linear",
    "Verif.Props.C25_ema_period_minus_one"
   ],
   "note": "Exact arithmetic."
  },
  {
   "property": "C26",
   "status": "partial",
   "theorems": [
    "Verif.Props.C26_rma_partial",
    "Verif.Props.C26_rma_doc_refuted"
   ],
   "note": "The Wilder recurrence holds; the documented warm-up mean does not (index 0 is skipped), shown by a witness."
  },
  {
   "property": "C27",
   "status": "proved",
   "theorems": [
    "Verif.Props.C27_true_range",
    "Verif.Props.C27_dominates"
   ],
   "note": "Exact arithmetic."
  },
  {
   "property": "C28",
   "status": "proved",
   "theorems": [
    "Verif.Props.C28_atr_recursion",
    "Verif.Props.C28_atr_bounds"
   ],
   "note": "Exact arithmetic."
  },
  {
   "property": "C29",
   "status": "proved",
   "theorems": [
    "Verif.Props.C29_divide_clean",
    "Verif.Props.C29_divide_exact",
    "Verif.Props.C29_elementwise",
    "Verif.Props.C29_subtract_exact"
   ],
   "note": "Lengths, panics and special values for every float type."
  },
  {
   "property": "C30",
   "status": "proved",
   "theorems": [
    "Verif.Props.C30_shift",
    "Verif.Props.C30_diff"
   ],
   "note": "Shift for every float type, differences in exact arithmetic."
  },
  {
   "property": "C31",
   "status": "proved",
   "theorems": [
    "Verif.Props.C31_parts_recombine"
   ],
   "note": "Includes infinities."
  },
  {
   "property": "C32",
   "status": "proved",
   "theorems": [
    "Verif.Props.C32_pivot_high",
    "Verif.Props.C32_pivot_low"
   ],
   "note": "Every float type with a linear order key on its non-NaN values."
  },
  {
   "property": "C33",
   "status": "proved",
   "theorems": [
    "Verif.Props.C33_highest",
    "Verif.Props.C33_lowest"
   ],
   "note": "Every float type with a linear order key on its non-NaN values."
  },
  {
   "property": "C34",
   "status": "partial",
   "theorems": [
    "Verif.Props.C34_pivot_max_partial",
    "Verif.Props.C34_pivot_min_partial",
    "Verif.Props.C34_refuted"
   ],
   "note": "The claim is false for negative values (PivotMax) and for extremes on both sides of the index; proved outside these cases."
  },
  {
   "property": "C35",
   "status": "proved",
   "theorems": [
    "Verif.Props.C35_cross",
    "Verif.Props.C35_asymm"
   ],
   "note": "Every float type with asymmetric <, NaN included."
  },
  {
   "property": "C36",
   "status": "proved",
   "theorems": [
    "Verif.Props.C36_no_lookahead",
    "Verif.Props.C36_signals_no_lookahead",
    "Verif.Props.C36_rma_not_causal"
   ],
   "note": "For the 45 indicator types of Library and the 24 strategies of Strategies, all parameters, any float semantics. Rma is not in the list: its negation is C36_rma_not_causal. SmartMoneyConcepts (which rewrites earlier records) is not in the list either."
  },
  {
   "property": "C37",
   "status": "partial",
   "theorems": [
    "Verif.Props.C37_one_record_per_candle",
    "Verif.Props.C37_timestamps_partial",
    "Verif.Props.C37_record0_zero_time",
    "Verif.Props.C37_rma_two_per_candle"
   ],
   "note": "Length for all of Library; timestamps for all but record 0 of UTBot, PivotPointSuperTrend and BreakoutProbability, where the code leaves the zero time (proved). Rma returns two records per candle (proved). SmartMoneyConcepts is covered by C72."
  },
  {
   "property": "C38",
   "status": "proved",
   "theorems": [
    "Verif.Props.C38_reads_idempotent",
    "Verif.Props.C38_kdj_lists_history_dependent"
   ],
   "note": "Any history of guarded reading calls on a new object, any indicator. The unguarded Kdj.GetListK/D/J depend on the history (proved). Callers that write into a returned slice are not modelled."
  },
  {
   "property": "C39",
   "status": "partial",
   "theorems": [
    "Verif.Props.C39_recalculation_partial",
    "Verif.Props.C39_accumulating_repeats"
   ],
   "note": "Holds for the 19 types whose Calculation builds a new slice; for the 26 types that append, GetData after m calls holds the records m times (proved), so the property fails there."
  },
  {
   "property": "C40",
   "status": "partial",
   "theorems": [
    "Verif.Props.C40_one_side_per_candle",
    "Verif.Props.C40_signals_exist",
    "Verif.Props.C40_first_candle_partial",
    "Verif.Props.C40_first_candle_is_buy"
   ],
   "note": "One side per candle for all 24 strategies. The first candle carries Hold only for TraderXO; for the other 23 it is always Buy (proved), because Buy is the zero value."
  },
  {
   "property": "C41",
   "status": "partial",
   "theorems": [
    "Verif.Props.C41_crossing_partial",
    "Verif.Props.C41_macd_exact",
    "Verif.Props.C41_kdj_exact",
    "Verif.Props.C41_ichimoku_exact",
    "Verif.Props.C41_macd_crossing_held"
   ],
   "note": "Exact Buy/Sell/Hold conditions for ten crossing strategies; Macd, Kdj and IchimokuCloud ask for more than a crossing, and their exact conditions are proved instead. C41_macd_crossing_held is a crossing Macd ignores."
  },
  {
   "property": "C42",
   "status": "partial",
   "theorems": [
    "Verif.Props.C42_alternation_partial",
    "Verif.Props.C42_touch_refuted",
    "Verif.Props.C42_macd_refuted"
   ],
   "note": "Holds when the two lines differ at every candle between the two signals. Refuted when they touch, and for Macd because of its zero-line condition."
  },
  {
   "property": "C43",
   "status": "partial",
   "theorems": [
    "Verif.Props.C43_rsi_exact",
    "Verif.Props.C43_rsi_range",
    "Verif.Props.C43_rsi_no_losses_partial",
    "Verif.Props.C43_window_refuted",
    "Verif.Props.C43_rsi_panics_iff"
   ],
   "note": "RSI equals the Wilder formula, lies in [0,100], and is 100 after a history without losses. The claim for a window without losses is false because the Wilder average remembers older losses; a counterexample is proved."
  },
  {
   "property": "C44",
   "status": "proved",
   "theorems": [
    "Verif.Props.C44_ta_stochastic",
    "Verif.Props.C44_stochastic_exact",
    "Verif.Props.C44_stochastic_range",
    "Verif.Props.C44_williams_range",
    "Verif.Props.C44_stochRsi_range"
   ],
   "note": "Exact arithmetic over the reals or any ordered field; flat windows give the zero the code substitutes."
  },
  {
   "property": "C45",
   "status": "proved",
   "theorems": [
    "Verif.Props.C45_kdj_range",
    "Verif.Props.C45_kdj_exact",
    "Verif.Props.C45_kdj_panics_iff"
   ],
   "note": "Exact arithmetic."
  },
  {
   "property": "C46",
   "status": "partial",
   "theorems": [
    "Verif.Props.C46_mfi_partial",
    "Verif.Props.C46_no_negative_flow_refuted"
   ],
   "note": "MFI equals the textbook ratio and lies in [0,100]. Without negative flow the code gives 0 and not 100; proved with a counterexample."
  },
  {
   "property": "C47",
   "status": "proved",
   "theorems": [
    "Verif.Props.C47_vwma",
    "Verif.Props.C47_cmf"
   ],
   "note": "Exact arithmetic."
  },
  {
   "property": "C48",
   "status": "proved",
   "theorems": [
    "Verif.Props.C48_donchian",
    "Verif.Props.C48_keltner",
    "Verif.Props.C48_boll"
   ],
   "note": "Exact arithmetic; Bollinger over the reals because of the square root."
  },
  {
   "property": "C49",
   "status": "partial",
   "theorems": [
    "Verif.Props.C49_boll_sides_partial",
    "Verif.Props.C49_boll_sides_refuted"
   ],
   "note": "The strategy buys above the upper band and never sells (the code compares prevPrice with itself); counterexamples to the documented behaviour are proved."
  },
  {
   "property": "C50",
   "status": "proved",
   "theorems": [
    "Verif.Props.C50_obv_sum"
   ],
   "note": "Exact arithmetic."
  },
  {
   "property": "C51",
   "status": "proved",
   "theorems": [
    "Verif.Props.C51_ut_stop"
   ],
   "note": "Over exact arithmetic: the stop follows the recursion, is monotone while price stays on one side, and the signals fire exactly at crossings."
  },
  {
   "property": "C52",
   "status": "partial",
   "theorems": [
    "Verif.Props.C52_supertrend_partial",
    "Verif.Props.C52_turn_down_sells",
    "Verif.Props.C52_zero_band_refuted",
    "Verif.Props.C52_pivot_supertrend_partial"
   ],
   "note": "Band monotonicity and trend changes proved for both indicators. Missing: a turn whose new band equals 0 gives no signal, shown by C52_zero_band_refuted; the trend is not reported as such, only through which record field is set."
  },
  {
   "property": "C53",
   "status": "proved",
   "theorems": [
    "Verif.Props.C53_line_count",
    "Verif.Props.C53_breakout"
   ],
   "note": "Over exact arithmetic; Win is characterised as the number of predictions that came true; a level is reported exactly when both percentages of the previous candle's colour are positive, with price and percentage."
  },
  {
   "property": "C54",
   "status": "proved",
   "theorems": [
    "Verif.Props.C54_levels"
   ],
   "note": "Over exact arithmetic."
  },
  {
   "property": "C55",
   "status": "partial",
   "theorems": [
    "Verif.Props.C55_price_lines",
    "Verif.Props.C55_ratios",
    "Verif.Props.C55_volume_lines",
    "Verif.Props.C55_signals",
    "Verif.Props.C55_rma",
    "Verif.Props.C55_ease",
    "Verif.Props.C55_real",
    "Verif.Props.C55_rsi_partial",
    "Verif.Props.C55_rsi_refuted",
    "Verif.Props.C55_stochrsi_partial",
    "Verif.Props.C55_stochrsi_refuted",
    "Verif.Props.C55_kdj_partial",
    "Verif.Props.C55_kdj_refuted",
    "Verif.Props.C55_supertrend_refuted"
   ],
   "note": "Exact arithmetic. Proved for every indicator without an absolute cut-off. Rsi (cut-off 1e-14), StochRsi (which reads Rsi), Kdj (cut-off 1e-6) and SuperTrend with changeATR=false do depend on the unit (refuted by witnesses); Rsi, StochRsi and Kdj, with their signals, are proved under the condition that the cut-off falls the same way in both units."
  },
  {
   "property": "C56",
   "status": "proved",
   "theorems": [
    "Verif.Props.C56_run_in_order",
    "Verif.Props.C56_results"
   ],
   "note": "Objects live in a heap; the same object may occur several times in the list."
  },
  {
   "property": "C57",
   "status": "partial",
   "theorems": [
    "Verif.Props.C57_unique",
    "Verif.Props.C57_add",
    "Verif.Props.C57_remove_partial",
    "Verif.Props.C57_remove_absent_refuted"
   ],
   "note": "Removing a block that is not in the list empties the list."
  },
  {
   "property": "C58",
   "status": "proved",
   "theorems": [
    "Verif.Props.C58_sides",
    "Verif.Props.C58_strings"
   ],
   "note": ""
  },
  {
   "property": "C59",
   "status": "proved",
   "theorems": [
    "Verif.Props.C59_ulcer"
   ],
   "note": "Over the reals."
  },
  {
   "property": "C60",
   "status": "proved",
   "theorems": [
    "Verif.Props.C60_nzs"
   ],
   "note": "For every law-free float type; memory model with shared backing arrays."
  },
  {
   "property": "C61",
   "status": "partial",
   "theorems": [
    "Verif.Props.C61_boll_width_partial",
    "Verif.Props.C61_two_deviations_refuted"
   ],
   "note": "The bands are one deviation wide whatever k is; refuted for k = 2."
  },
  {
   "property": "C62",
   "status": "partial",
   "theorems": [
    "Verif.Props.C62_true_range_partial",
    "Verif.Props.C62_gap_down_refuted"
   ],
   "note": "Equal to the true range exactly when the previous close is not above the high; refuted on a gap down and at the first candle."
  },
  {
   "property": "C63",
   "status": "proved",
   "theorems": [
    "Verif.Props.C63_range"
   ],
   "note": "Exact arithmetic; candles well formed, smoothing length at least 2."
  },
  {
   "property": "C64",
   "status": "proved",
   "theorems": [
    "Verif.Props.C64_vortex",
    "Verif.Props.C64_still"
   ],
   "note": "Exact arithmetic; C64_still shows the positive-range condition cannot be dropped."
  },
  {
   "property": "C65",
   "status": "partial",
   "theorems": [
    "Verif.Props.C65_hit_rate_partial",
    "Verif.Props.C65_stale_refuted",
    "Verif.Props.C65_lower_refuted"
   ],
   "note": "Holds for upper levels at candles that break the level. Otherwise an old rate is shown, and lower levels count the lows that stay above the level."
  },
  {
   "property": "C66",
   "status": "partial",
   "theorems": [
    "Verif.Props.C66_mean_partial",
    "Verif.Props.C66_stuck",
    "Verif.Props.C66_refuted"
   ],
   "note": "Holds as long as the smoothed movements have not both been 0 at a candle from the first full period on; after such a candle ADX is 0 for ever (C66_stuck), with a concrete witness (C66_refuted)."
  },
  {
   "property": "C67",
   "status": "proved",
   "theorems": [
    "Verif.Props.C67_smc_returns_iff",
    "Verif.Props.C67_smc_returns_eq"
   ],
   "note": "NaN-free candles; any arithmetic with a linear order on its numbers (Laws)."
  },
  {
   "property": "C68",
   "status": "proved",
   "theorems": [
    "Verif.Props.C68_smc_lines"
   ],
   "note": "Soundness of every line; that every break draws a line is not claimed."
  },
  {
   "property": "C69",
   "status": "partial",
   "theorems": [
    "Verif.Props.C69_smc_blocks_partial",
    "Verif.Props.C69_smc_blocks_refuted"
   ],
   "note": "The bound is OrderBlockNumber + 1; the refutation shows that OrderBlockNumber is exceeded."
  },
  {
   "property": "C70",
   "status": "partial",
   "theorems": [
    "Verif.Props.C70_smc_block_choice_partial",
    "Verif.Props.C70_smc_block_early_refuted"
   ],
   "note": "Holds when some candle in the range is narrow and prices lie in 0..99999999; before candle 200 the block is always candle 1."
  },
  {
   "property": "C71",
   "status": "partial",
   "theorems": [
    "Verif.Props.C71_smc_levels_partial",
    "Verif.Props.C71_smc_levels_refuted"
   ],
   "note": "Holds unless the level is labelled with candle 0."
  },
  {
   "property": "C72",
   "status": "partial",
   "theorems": [
    "Verif.Props.C72_smc_times_partial"
   ],
   "note": "The theorem also shows that the records before max(1, SwingLenght) carry the zero time."
  },
  {
   "property": "C73",
   "status": "partial",
   "theorems": [
    "Verif.Props.C73_smc_again_partial",
    "Verif.Props.C73_smc_clear_refuted"
   ],
   "note": "Stable without Clear; refuted after Clear."
  },
  {
   "property": "C74",
   "status": "partial",
   "theorems": [
    "Verif.Props.C74_smc_choch_partial",
    "Verif.Props.C74_smc_choch_refuted"
   ],
   "note": "Three of the four lines; refuted for the long-term downward line."
  },
  {
   "property": "C75",
   "status": "proved",
   "theorems": [
    "Verif.Props.C75_padding",
    "Verif.Props.C75_padding_purge",
    "Verif.Props.C75_padding_errors"
   ],
   "note": "Intervals of whole seconds; instants do not saturate."
  },
  {
   "property": "C76",
   "status": "proved",
   "theorems": [
    "Verif.Props.C76_padded_upscales"
   ],
   "note": ""
  },
  {
   "property": "C77",
   "status": "proved",
   "theorems": [
    "Verif.Props.C77_answers_iff",
    "Verif.Props.C77_defaults",
    "Verif.Props.C77_signals_iff",
    "Verif.Props.C77_rma_answers",
    "Verif.Props.C77_smc_default"
   ],
   "note": "Law-free floats: the counts do not depend on the arithmetic, except for SmartMoneyConcepts, where the candles must be free of NaN."
  },
  {
   "property": "C78",
   "status": "proved",
   "theorems": [
    "Verif.Props.C78_one_field",
    "Verif.Props.C78_two_fields",
    "Verif.Props.C78_one_value_per_candle"
   ],
   "note": "Kdj.GetListK/D/J are refuted by C38_kdj_lists_history_dependent."
  },
  {
   "property": "C79",
   "status": "proved",
   "theorems": [
    "Verif.Props.C79_reversal_exact",
    "Verif.Props.C79_reversals_apart",
    "Verif.Props.C79_reversal_warmup"
   ],
   "note": "Law-free float64: holds for every interpretation of the float operations, NaN included."
  },
  {
   "property": "C80",
   "status": "proved",
   "theorems": [
    "Verif.Props.C80_accumulation_distribution",
    "Verif.Props.C80_accumulation_step",
    "Verif.Props.C80_negative_volume",
    "Verif.Props.C80_negative_volume_falling",
    "Verif.Props.C80_volume_price_trend",
    "Verif.Props.C80_force",
    "Verif.Props.C80_force_still",
    "Verif.Props.C80_ease"
   ],
   "note": "exact arithmetic over any ordered field"
  },
  {
   "property": "C81",
   "status": "partial",
   "theorems": [
    "Verif.Props.C81_ichimoku_partial",
    "Verif.Props.C81_conversion_refuted"
   ],
   "note": "The conversion line pairs the highest high of 9 candles with the lowest low of convP candles, so the claim is false for it unless convP = 9 (refuted with the default periods); everything else is proved."
  },
  {
   "property": "C82",
   "status": "proved",
   "theorems": [
    "Verif.Props.C82_ema",
    "Verif.Props.C82_dema",
    "Verif.Props.C82_macd",
    "Verif.Props.C82_apo",
    "Verif.Props.C82_awesome",
    "Verif.Props.C82_ppo",
    "Verif.Props.C82_volume_oscillator",
    "Verif.Props.C82_chaikin",
    "Verif.Props.C82_trader_xo",
    "Verif.Props.C82_vegas",
    "Verif.Props.C82_still",
    "Verif.Props.C82_stoch_rsi"
   ],
   "note": "exact arithmetic over any ordered field"
  },
  {
   "property": "C83",
   "status": "proved",
   "theorems": [
    "Verif.Props.C83_sma",
    "Verif.Props.C83_ma",
    "Verif.Props.C83_cci",
    "Verif.Props.C83_aicoin_cci"
   ],
   "note": "exact arithmetic over any ordered field"
  },
  {
   "property": "C84",
   "status": "proved",
   "theorems": [
    "Verif.Props.C84_regression_candles"
   ],
   "note": "exact arithmetic over any ordered field"
  },
  {
   "property": "C85",
   "status": "partial",
   "theorems": [
    "Verif.Props.C85_heat_partial",
    "Verif.Props.C85_plot_refuted"
   ],
   "note": "The fast line is the sum of 28 smoothed stochastics over 100 and lies in 0..28 whatever PlotNum is; that it stays within PlotNum is refuted."
  },
  {
   "property": "C86",
   "status": "proved",
   "theorems": [
    "Verif.Props.C86_threshold",
    "Verif.Props.C86_mfi",
    "Verif.Props.C86_rsi",
    "Verif.Props.C86_projection",
    "Verif.Props.C86_vegas"
   ],
   "note": ""
  },
  {
   "property": "C87",
   "status": "proved",
   "theorems": [
    "Verif.Props.C87_camarilla",
    "Verif.Props.C87_lookahead"
   ],
   "note": "day is any function from Unix seconds to a day, so every time zone is covered"
  },
  {
   "property": "C88",
   "status": "partial",
   "theorems": [
    "Verif.Props.C88_projection_partial",
    "Verif.Props.C88_projection_refuted"
   ],
   "note": "The exact formula is proved; that the value lies in 0..100 and is high in a rising market is refuted: a rising line gives -25 and Sell, a falling one 125 and Buy."
  },
  {
   "property": "C89",
   "status": "proved",
   "theorems": [
    "Verif.Props.C89_trader_xo",
    "Verif.Props.C89_trader_xo_alternates"
   ],
   "note": "for any asymmetric float comparison"
  },
  {
   "property": "C90",
   "status": "proved",
   "theorems": [
    "Verif.Props.C90_chandelier",
    "Verif.Props.C90_panics"
   ],
   "note": "Exact arithmetic; the comment in the source speaks of an SMA of the highs, the code takes the extremes."
  },
  {
   "property": "C91",
   "status": "proved",
   "theorems": [
    "Verif.Props.C91_mean",
    "Verif.Props.C91_sd"
   ],
   "note": "Exact arithmetic (SD over the reals)."
  },
  {
   "property": "C92",
   "status": "proved",
   "theorems": [
    "Verif.Props.C92_angle"
   ],
   "note": "Over the reals with exact arctan and pi; the Go constant 180/pi is rounded."
  },
  {
   "property": "C93",
   "status": "proved",
   "theorems": [
    "Verif.Props.C93_round"
   ],
   "note": "Exact real arithmetic; in float64 v*10^d is rounded before math.Round and ties may fall the other way."
  },
  {
   "property": "C94",
   "status": "proved",
   "theorems": [
    "Verif.Props.C94_natr"
   ],
   "note": "Exact arithmetic; an example shows that Natr differs from 100*Atr/close because Atr starts differently."
  },
  {
   "property": "C95",
   "status": "proved",
   "theorems": [
    "Verif.Props.C95_clear_is_final"
   ],
   "note": "Objects with a nil-able candle pointer; a recovered panic leaves the object unchanged."
  },
  {
   "property": "C96",
   "status": "proved",
   "theorems": [
    "Verif.Props.C96_compute_cci",
    "Verif.Props.C96_same_cci"
   ],
   "note": "Any float arithmetic."
  },
  {
   "property": "C97",
   "status": "proved",
   "theorems": [
    "Verif.Props.C97_total_candles",
    "Verif.Props.C97_machine"
   ],
   "note": "C97_machine relates the count with exact differences to the one with the saturating time.Sub."
  },
  {
   "property": "C98",
   "status": "proved",
   "theorems": [
    "Verif.Props.C98_pointer_tree",
    "Verif.Props.C98_pointer_tree_int",
    "Verif.Props.C98_any_floats",
    "Verif.Props.C98_mixed_kinds",
    "Verif.Props.C98_compare_fails"
   ],
   "note": "Refinement between memory and inductive tree; loops carry a budget that is shown to be never used up. Values implementing Comparable are not modelled."
  },
  {
   "property": "C99",
   "status": "proved",
   "theorems": [
    "Verif.Props.C99_stochastic_k",
    "Verif.Props.C99_williams",
    "Verif.Props.C99_kdj"
   ],
   "note": "IEEE binary64 model with round to nearest even; finite float64 prices of any size."
  }
 ]
}
