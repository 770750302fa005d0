import Verif.Props.EmaLines
import Verif.Props.Percent
import Verif.Props.TaReg

/-!
# Lines computed from a window of candles (C81, C83, C84, C85)

Exact arithmetic.
-/

set_option linter.unusedSectionVars false

namespace Verif.Props
open Verif Verif.Klines Verif.Ta Verif.Ind GoFloat XF

variable {K : Type} [Field K] [LinearOrder K] [IsStrictOrderedRing K]

/-! ## C81: IchimokuCloud -/

/-- `v` is the middle between the highest high of the last `p` candles and the lowest low of the last `q`. -/
def Midway (bs : List (Bar K)) (p q i : Nat) (v : K) : Prop :=
  ∃ u l, IsGreatest {y | ∃ b ∈ window p i bs, b.h = y} u ∧ IsLeast {y | ∃ b ∈ window q i bs, b.l = y} l ∧
    v = (u + l) / 2

theorem midHL_fin {p q : Nat} (hp : 0 < p) (hq : 0 < q) {bs : List (Bar K)} {b : Nat → Bar K}
    {x : Nat → Candle (XF K)} (hbs : bs = tab bs.length b) (hc : Cols bs.length x b) {i : Nat} (hi : i < bs.length) :
    ∃ v, midHL p q x i = .fin v ∧ Midway bs p q i v := by
  obtain ⟨u, eu, hu⟩ := maxF_fin hp (fun j => (b j).h) i
  obtain ⟨l, el, hl⟩ := minF_fin hq (fun j => (b j).l) i
  refine ⟨(u + l) / 2, ?_, u, l, ?_, ?_, rfl⟩
  · rw [midHL, hc.hi, hc.lo, eu, el]
    simp only [fl_fin, add_fin]
    rw [div_fin (by norm_num), mul_fin]
    congr 1
    push_cast; ring
  · rw [hbs]; exact isGreatest_window _ b hi hu
  · rw [hbs]; exact isLeast_window _ b hi hl

/-- **C81**, IchimokuCloud: the base line is midway between the extremes of 26 candles, leading span B of `spanBP`
candles, leading span A is the mean of conversion and base line, the lagging line the close `lagP` candles earlier (0
before). Partial: the conversion line pairs the highest high of the last *nine* candles with the lowest low of the last
`convP`; it is midway between the extremes of one window only for `convP = 9`. See `C81_conversion_refuted`. -/
theorem C81_ichimoku_partial {convP spanBP lagP : Nat} (h1 : 0 < convP) (h2 : 0 < spanBP) {it : Item (XF K)}
    {bs : List (Bar K)} (hb : Holds it bs) {d : List (Ichimoku.Data (XF K))}
    (hd : (Ichimoku convP spanBP lagP).data it = .ok d) {i : Nat} {r : Ichimoku.Data (XF K)} (hr : d[i]? = some r) :
    ∃ conv base spanB : K, r.conversion = .fin conv ∧ r.base = .fin base ∧ r.spanA = .fin ((conv + base) / 2) ∧
      r.spanB = .fin spanB ∧ r.lagging = .fin (if i < lagP then 0 else col Bar.c bs (i - lagP)) ∧
      Midway bs 9 convP i conv ∧ Midway bs 26 26 i base ∧ Midway bs spanBP spanBP i spanB := by
  obtain ⟨x, b, hx, hbs, hc⟩ := hb.cols
  obtain ⟨hi, -, rfl, -⟩ := at_index (b := b) (Ichimoku.appends convP spanBP lagP).yields hx hd hr
  obtain ⟨conv, ec, hconv⟩ := midHL_fin (p := 9) (by omega) h1 hbs hc hi
  obtain ⟨base, eb, hbase⟩ := midHL_fin (p := 26) (q := 26) (by omega) (by omega) hbs hc hi
  obtain ⟨sb, es, hsb⟩ := midHL_fin h2 h2 hbs hc hi
  refine ⟨conv, base, sb, ec, eb, ?_, es, ?_, hconv, hbase, hsb⟩
  · show (midHL 9 (convP : Int).toNat x i +. midHL 26 26 x i) *. (fl 1 /. fl 2) = _
    rw [Int.toNat_natCast, ec, eb]
    simp only [fl_fin, add_fin]
    rw [div_fin (by norm_num), mul_fin]
    congr 1
    push_cast; ring
  · show shiftF (lagP : Int).toNat (fl 0) (Ind.cl x) i = _
    rw [Int.toNat_natCast, shiftF, hc.cl]
    split
    · simp
    · simp only [finF]; rw [Holds.col_eq hbs (by omega)]

/-- Twelve candles; only the first reaches down to 1. -/
def dippedBars : List (Bar ℚ) := ⟨5, 5, 1, 5, 1⟩ :: List.replicate 11 ⟨5, 5, 5, 5, 1⟩

/-- C81 refuted for the default periods 20, 60, 120: at the twelfth candle the conversion line is 3, while the highest
high and lowest low of the last nine candles are both 5 (for the last twenty it would be 3, but then a high before
the last nine is ignored: the second series). -/
theorem C81_conversion_refuted :
    (∃ d : List (Ichimoku.Data (XF ℚ)), (Ichimoku 20 60 120).data (barItem dippedBars) = .ok d ∧
      (d[11]?).map (·.conversion) = some (.fin 3) ∧ ∀ v, Midway dippedBars 9 9 11 v → v = 5) ∧
    (∃ d : List (Ichimoku.Data (XF ℚ)),
      (Ichimoku 20 60 120).data (barItem (⟨5, 9, 5, 5, 1⟩ :: List.replicate 11 ⟨5, 5, 5, 5, 1⟩)) = .ok d ∧
      (d[11]?).map (·.conversion) = some (.fin 5) ∧
      ∀ v, Midway (⟨5, 9, 5, 5, 1⟩ :: List.replicate 11 (⟨5, 5, 5, 5, 1⟩ : Bar ℚ)) 20 20 11 v → v = 7) := by
  refine ⟨⟨((Ichimoku 20 60 120).data (barItem dippedBars)).toOption.getD [], by decide +kernel, by decide +kernel, ?_⟩,
    ⟨((Ichimoku 20 60 120).data (barItem (⟨5, 9, 5, 5, 1⟩ :: List.replicate 11 ⟨5, 5, 5, 5, 1⟩))).toOption.getD [],
      by decide +kernel, by decide +kernel, ?_⟩⟩
  · rintro v ⟨u, l, ⟨⟨b, hb, rfl⟩, -⟩, ⟨⟨c, hc, rfl⟩, -⟩, rfl⟩
    have hw : window 9 11 dippedBars = List.replicate 9 ⟨5, 5, 5, 5, 1⟩ := rfl
    rw [hw] at hb hc
    rw [List.eq_of_mem_replicate hb, List.eq_of_mem_replicate hc]
    norm_num
  · rintro v ⟨u, l, ⟨⟨b, hb, rfl⟩, hu⟩, ⟨⟨c, hc, rfl⟩, -⟩, rfl⟩
    have hw : window 20 11 (⟨5, 9, 5, 5, 1⟩ :: List.replicate 11 (⟨5, 5, 5, 5, 1⟩ : Bar ℚ)) =
      ⟨5, 9, 5, 5, 1⟩ :: List.replicate 11 ⟨5, 5, 5, 5, 1⟩ := rfl
    rw [hw] at hb hc hu
    have h9 : (9 : ℚ) ≤ b.h := hu ⟨⟨5, 9, 5, 5, 1⟩, List.mem_cons_self, rfl⟩
    have eb : b.h = 9 := by
      rcases List.mem_cons.mp hb with rfl | hb
      · rfl
      · rw [List.eq_of_mem_replicate hb] at h9; norm_num at h9
    have ec : c.l = 5 := by
      rcases List.mem_cons.mp hc with rfl | hc
      · rfl
      · rw [List.eq_of_mem_replicate hc]
    rw [eb, ec]; norm_num

/-! ## C83: simple averages and the commodity channel indices -/

theorem smaF_mean {p : Nat} (hp : 0 < p) (a : Nat → K) (i : Nat) :
    smaF p (finF a) i = .fin (winSum p i a / (min p (i + 1) : Nat)) := by
  rw [smaF_fin hp, winSum, Finset.sum_Ico_eq_sub _ (by omega)]
  rfl

/-- **C83**, Sma: the mean of the last `p` closes (of all closes so far while there are fewer). -/
theorem C83_sma {p : Nat} (hp : 0 < p) {it : Item (XF K)} {bs : List (Bar K)} (hb : Holds it bs)
    {d : List (Rec (XF K))} (hd : (SMA p).data it = .ok d) {i : Nat} {r : Rec (XF K)} (hr : d[i]? = some r) :
    r.value = .fin (winSum p i (col Bar.c bs) / (min p (i + 1) : Nat)) := by
  obtain ⟨x, hx, hc⟩ := hb.full
  obtain ⟨-, -, rfl⟩ := at_full (SMA.makes p).yields hx hd hr
  show smaF (p : Int).toNat (cl x) i = _
  rw [Int.toNat_natCast, hc.cl, smaF_mean hp]

/-- **C83**, Ma: the same values as Sma. -/
theorem C83_ma {p : Nat} (hp : 0 < p) {it : Item (XF K)} {bs : List (Bar K)} (hb : Holds it bs)
    {d : List (Rec (XF K))} (hd : (MAi p).data it = .ok d) {i : Nat} {r : Rec (XF K)} (hr : d[i]? = some r) :
    r.value = .fin (winSum p i (col Bar.c bs) / (min p (i + 1) : Nat)) := by
  obtain ⟨x, hx, hc⟩ := hb.full
  obtain ⟨-, -, rfl⟩ := at_full (MAi.appends p).yields hx hd hr
  show smaF (p : Int).toNat (cl x) i = _
  rw [Int.toNat_natCast, hc.cl, smaF_mean hp]

/-- Typical price of bar `j`. -/
def typical (bs : List (Bar K)) (j : Nat) : K := (col Bar.h bs j + col Bar.l bs j + col Bar.c bs j) / 3

theorem accum_abs (a : Nat → K) (m : K) (lo c : Nat) :
    accum (fun j => GoFloat.abs (finF a j -. .fin m)) lo c = .fin (∑ j ∈ Finset.Ico lo (lo + c), |a j - m|) := by
  have e : (fun j => GoFloat.abs (finF a j -. XF.fin m)) = finF fun j => |a j - m| := by
    funext j
    simp only [finF, sub_fin, abs_fin']
  rw [e, accum_fin, Finset.sum_Ico_eq_sum_range, Nat.add_sub_cancel_left]

/-- **C83**, Cci: 0 before candle `p - 1`; from then on the distance of the typical price from its `sp`-mean, divided by
0.015 times the mean deviation of the last `p` typical prices from that mean. When those prices all equal the mean
(a market standing still) the value is NaN. -/
theorem C83_cci {p sp : Nat} (hp : 0 < p) (hsp : 0 < sp) {it : Item (XF K)} {bs : List (Bar K)} (hb : Holds it bs)
    {d : List (Rec (XF K))} (hd : (CCIi p sp).data it = .ok d) {i : Nat} {r : Rec (XF K)} (hr : d[i]? = some r) :
    let m := winSum sp i (typical bs) / (min sp (i + 1) : Nat)
    let dev := (∑ j ∈ Finset.Ico (i + 1 - p) (i + 1), |typical bs j - m|) / p
    (i + 1 < p → r.value = .fin 0) ∧
    (p ≤ i + 1 → dev ≠ 0 → r.value = .fin ((typical bs i - m) / (15 / 1000 * dev))) ∧
    (p ≤ i + 1 → dev = 0 → r.value = .nan) := by
  intro m dev
  obtain ⟨x, hx, hc⟩ := hb.full
  obtain ⟨-, -, rfl⟩ := at_full (CCIi.appends p sp).yields hx hd hr
  have et : typF x = finF (typical bs) := by
    funext j
    rw [typF, hc.hi, hc.lo, hc.cl]
    simp only [finF, add_fin, fl_fin]
    rw [div_fin (by norm_num)]
    simp [typical]
  have em : smaF sp (finF (typical bs)) i = .fin m := by
    rw [smaF_mean hsp]
  have hp' : (p : K) ≠ 0 := natCast_ne hp
  have key : p ≤ i + 1 → cciF (p : Int).toNat (sp : Int).toNat (typF x) i =
      .fin (typical bs i - m) /. .fin (15 / 1000 * dev) := by
    intro hi
    rw [Int.toNat_natCast, Int.toNat_natCast, cciF, if_neg (by omega), et, em, meanDevF, if_neg (by omega), em,
      accum_abs, fl_nat, div_fin hp', lit_fin, mul_fin, show i + 1 - p + p = i + 1 by omega]
    simp only [finF, sub_fin]
    congr 2
    push_cast; rfl
  refine ⟨fun hi => ?_, fun hi hdev => ?_, fun hi hdev => ?_⟩
  · show cciF _ _ _ _ = _
    rw [cciF, if_pos (by omega)]
    simp
  · show cciF _ _ _ _ = _
    rw [key hi, div_fin (mul_ne_zero (by norm_num) hdev)]
  · show cciF _ _ _ _ = _
    have hs : ∑ j ∈ Finset.Ico (i + 1 - p) (i + 1), |typical bs j - m| = 0 := by
      rcases div_eq_zero_iff.mp hdev with h | h
      · exact h
      · exact absurd h hp'
    have h0 := (Finset.sum_eq_zero_iff_of_nonneg fun j _ => abs_nonneg _).mp hs i (Finset.mem_Ico.mpr (by omega))
    rw [key hi, hdev, abs_eq_zero.mp h0, mul_zero, div_fin_eq, if_pos rfl, infSign]
    simp

/-- **C83**, AiCoinCCI: 0 before candle `p - 1`; from then on the distance of the close from the mean of the last `p`
closes, divided by 0.015 times their mean deviation from that mean; 0 when that deviation is 0. -/
theorem C83_aicoin_cci {p : Nat} (hp : 0 < p) {it : Item (XF K)} {bs : List (Bar K)} (hb : Holds it bs)
    {d : List (Rec (XF K))} (hd : (AiCCI p).data it = .ok d) {i : Nat} {r : Rec (XF K)} (hr : d[i]? = some r) :
    let m := (∑ j ∈ Finset.Ico (i + 1 - p) (i + 1), col Bar.c bs j) / p
    let dev := (∑ j ∈ Finset.Ico (i + 1 - p) (i + 1), |col Bar.c bs j - m|) / p
    r.value = .fin (if i + 1 < p then 0 else (col Bar.c bs i - m) / (15 / 1000 * dev)) := by
  intro m dev
  obtain ⟨x, hx, hc⟩ := hb.full
  obtain ⟨-, -, rfl⟩ := at_full (AiCCI.appends p).yields hx hd hr
  have hp' : (p : K) ≠ 0 := natCast_ne hp
  show aiCciF (p : Int).toNat (cl x) i = _
  rw [Int.toNat_natCast, hc.cl, aiCciF]
  by_cases hi : i + 1 < p
  · have e0 : devF p (finF (col Bar.c bs)) i = .fin 0 := by
      rw [devF, if_pos (Or.inr hi)]
      simp
    rw [e0, if_pos hi]
    simp
  have ema : accum (finF (col Bar.c bs)) (i + 1 - p) p /. fl p = .fin m := by
    rw [accum_fin, fl_nat, div_fin hp']
    show _ = XF.fin ((∑ j ∈ Finset.Ico (i + 1 - p) (i + 1), col Bar.c bs j) / p)
    rw [Finset.sum_Ico_eq_sum_range, show i + 1 - (i + 1 - p) = p by omega]
  have edev : devF p (finF (col Bar.c bs)) i = .fin dev := by
    rw [devF, if_neg (by omega), ema, accum_abs, fl_nat, div_fin hp', show i + 1 - p + p = i + 1 by omega]
  have ema' : maF p (finF (col Bar.c bs)) i = .fin m := by rw [maF, if_neg (by omega), ema]
  rw [edev, if_neg hi, show (fl 0 : XF K) = .fin 0 by simp, eq_fin, ema', lit_fin]
  by_cases h : dev = 0
  · simp [h]
  · rw [if_neg (by simpa using h)]
    simp only [finF, sub_fin, mul_fin]
    rw [div_fin (mul_ne_zero (by norm_num) h)]
    congr 3
    push_cast; rfl

example : (SMA 2).data (barItem threeBars) = .ok [⟨0, .fin 2⟩, ⟨0, .fin 3⟩, ⟨0, .fin (5 / 2)⟩] ∧
    (MAi 2).data (barItem threeBars) = .ok [⟨0, .fin 2⟩, ⟨0, .fin 3⟩, ⟨0, .fin (5 / 2)⟩] ∧
    (CCIi 2 2).data (barItem threeBars) = .ok [⟨0, .fin 0⟩, ⟨0, .fin (200 / 3)⟩, ⟨0, .fin (-200 / 3)⟩] ∧
    (AiCCI 2).data (barItem threeBars) = .ok [⟨0, .fin 0⟩, ⟨0, .fin (200 / 3)⟩, ⟨0, .fin (-200 / 3)⟩] := by
  refine ⟨?_, ?_, ?_, ?_⟩ <;> decide +kernel

/-- Two equal candles: `Cci` is NaN, `AiCoinCCI` 0. -/
example : (CCIi 2 2).data (barItem (List.replicate 2 (⟨5, 5, 5, 5, 1⟩ : Bar ℚ))) = .ok [⟨0, .fin 0⟩, ⟨0, .nan⟩] ∧
    (AiCCI 2).data (barItem (List.replicate 2 (⟨5, 5, 5, 5, 1⟩ : Bar ℚ))) = .ok [⟨0, .fin 0⟩, ⟨0, .fin 0⟩] := by
  refine ⟨?_, ?_⟩ <;> decide +kernel

/-! ## C84: LinearRegressionCandles -/

/-- `v` is the value at its last point of the least-squares line through the last `p` prices (0 before there are `p`). -/
def TrendEnd (ps : List K) (p i : Nat) (v : K) : Prop :=
  (i + 1 < p → v = 0) ∧
  (p ≤ i + 1 → ∃ m b, IsBestLine (asPoints (window p i ps)) m b ∧ v = m * ((p : K) - 1) + b)

theorem lrEnd_trend {p : Nat} (hp : 2 ≤ p) (f : Bar K → K) (bs : List (Bar K)) {i : Nat} (hi : i < bs.length) :
    ∃ v, lrF lrEnd p (finF (col f bs)) i = .fin v ∧ TrendEnd (bs.map f) p i v := by
  by_cases h : i + 1 < p
  · exact ⟨0, by simp [lrF, h], fun _ => rfl, fun h' => by omega⟩
  · refine ⟨_, (lrSlope_fin hp (col f bs) i h).2.2, fun h' => absurd h' h, fun _ =>
      ⟨lsSlope p (i + 1 - p) (col f bs), lsIcpt p (i + 1 - p) (col f bs), ?_, by ring⟩⟩
    have e : bs.map f = tab bs.length (col f bs) :=
      eq_tab_of_forall (by simp) fun j hj => by
        simp [col, hj]
    rw [e, window_tab _ hi, show i + 1 - (i + 1 - p) = p by omega, asPoints_tab]
    obtain ⟨e1, e2⟩ := lsLine_normal (K := K) hp (i + 1 - p) (col f bs)
    exact bestLine_of_normal (fun j => (j : K)) (fun j => col f bs (i + 1 - p + j)) _ _ e1 e2
      (i := 0) (j := 1) (by omega) (by omega) (by simp)

/-- **C84**, LinearRegressionCandles: open, high, low and close of the `i`-th record are the end points of the
least-squares lines through the last `p` opens, highs, lows and closes; the signal is the simple or exponential average
of the closes of the records so far. -/
theorem C84_regression_candles {p s : Nat} (hp : 2 ≤ p) (hs : 0 < s) {sma : Bool} {it : Item (XF K)} {bs : List (Bar K)}
    (hb : Holds it bs) {d : List (LRC.Data (XF K))} (hd : (LRC s p sma).data it = .ok d) :
    ∃ o h l c : Nat → K,
      (∀ i < bs.length, TrendEnd (bs.map Bar.o) p i (o i) ∧ TrendEnd (bs.map Bar.h) p i (h i) ∧
        TrendEnd (bs.map Bar.l) p i (l i) ∧ TrendEnd (bs.map Bar.c) p i (c i)) ∧
      ∀ (i : Nat) (r : LRC.Data (XF K)), d[i]? = some r →
        r.op = .fin (o i) ∧ r.hi = .fin (h i) ∧ r.lo = .fin (l i) ∧ r.cl = .fin (c i) ∧
        r.signal = .fin (if sma then winSum s i c / (min s (i + 1) : Nat) else expMean s c i) := by
  obtain ⟨x, hx, hc⟩ := hb.full
  have key : ∀ f : Bar K → K, ∃ v : Nat → K, lrF lrEnd p (finF (col f bs)) = finF v ∧
      ∀ i < bs.length, TrendEnd (bs.map f) p i (v i) := by
    intro f
    refine ⟨fun i => if i + 1 < p then 0 else lsIcpt p (i + 1 - p) (col f bs) + lsSlope p (i + 1 - p) (col f bs) * ((p : K) - 1),
      ?_, fun i hi => ?_⟩
    · funext i
      by_cases h : i + 1 < p
      · simp [lrF, h, finF]
      · rw [(lrSlope_fin hp (col f bs) i h).2.2]; simp [h, finF]
    · obtain ⟨v, hv, ht⟩ := lrEnd_trend hp f bs hi
      have : v = if i + 1 < p then 0 else
          lsIcpt p (i + 1 - p) (col f bs) + lsSlope p (i + 1 - p) (col f bs) * ((p : K) - 1) := by
        by_cases h : i + 1 < p
        · simp only [lrF, h, if_true, fl_fin, Int.cast_zero, XF.fin.injEq] at hv
          rw [if_pos h, ← hv]
        · rw [(lrSlope_fin hp (col f bs) i h).2.2, XF.fin.injEq] at hv
          rw [if_neg h, ← hv]
      beta_reduce
      rw [← this]
      exact ht
  obtain ⟨o, eo, ho⟩ := key Bar.o
  obtain ⟨h, eh, hh⟩ := key Bar.h
  obtain ⟨l, el, hl⟩ := key Bar.l
  obtain ⟨c, ec, hcl⟩ := key Bar.c
  refine ⟨o, h, l, c, fun i hi => ⟨ho i hi, hh i hi, hl i hi, hcl i hi⟩, fun i r hr => ?_⟩
  obtain ⟨-, -, rfl⟩ := at_full (LRC.makes s p sma).yields hx hd hr
  refine ⟨?_, ?_, ?_, ?_, ?_⟩
  · show lrF lrEnd (p : Int).toNat (Ind.op x) i = _
    rw [Int.toNat_natCast, hc.op, eo]
  · show lrF lrEnd (p : Int).toNat (Ind.hi x) i = _
    rw [Int.toNat_natCast, hc.hi, eh]
  · show lrF lrEnd (p : Int).toNat (Ind.lo x) i = _
    rw [Int.toNat_natCast, hc.lo, el]
  · show lrF lrEnd (p : Int).toNat (Ind.cl x) i = _
    rw [Int.toNat_natCast, hc.cl, ec]
  · show (if sma then smaF (s : Int).toNat (lrF lrEnd (p : Int).toNat (Ind.cl x)) i
      else emaF s (lrF lrEnd (p : Int).toNat (Ind.cl x)) i) = _
    rw [Int.toNat_natCast, Int.toNat_natCast, hc.cl, ec]
    cases sma
    · simp only [Bool.false_eq_true, if_false]; rw [emaF_expMean]
    · simp only [if_true]
      rw [smaF_mean hs]

example : ((LRC 2 3 true).data (barItem (flatBars [(1 : ℚ), 3, 2, 6]))).toOption.map (·.map fun r => (r.cl, r.signal)) =
    some [(.fin 0, .fin 0), (.fin 0, .fin 0), (.fin (5 / 2), .fin (5 / 4)), (.fin (31 / 6), .fin (23 / 6))] := by
  decide +kernel

/-! ## C85: StochasticHeat -/

theorem wmaF_bounds {p : Nat} (hp : 0 < p) (a : Nat → K) (i : Nat) {u : K} (hu : 0 ≤ u)
    (h : ∀ j ≤ i, 0 ≤ a j ∧ a j ≤ u) : ∃ v, wmaF p (finF a) i = .fin v ∧ 0 ≤ v ∧ v ≤ u := by
  rw [wmaF_fin hp]
  refine ⟨_, rfl, ?_⟩
  split
  · exact ⟨le_refl _, hu⟩
  · rename_i hip
    have h : ∀ j ∈ Finset.range p, 0 ≤ a (i + 1 - p + j) ∧ a (i + 1 - p + j) ≤ u := fun j hj =>
      h _ (by have := Finset.mem_range.mp hj; omega)
    have hp' : (0 : K) < p := by exact_mod_cast hp
    have hd : (0 : K) < (p : K) * (p + 1) / 2 := by positivity
    have hs : ∀ q : Nat, ∑ j ∈ Finset.range q, ((j : K) + 1) = (q : K) * (q + 1) / 2 := by
      intro q
      induction q with
      | zero => simp
      | succ q ih => rw [Finset.sum_range_succ, ih]; push_cast; ring
    constructor
    · exact div_nonneg (Finset.sum_nonneg fun j hj => mul_nonneg (h j hj).1 (by positivity)) hd.le
    · rw [div_le_iff₀ hd, ← hs p, Finset.mul_sum]
      exact Finset.sum_le_sum fun j hj => mul_le_mul_of_nonneg_right (h j hj).2 (by positivity)

/-- The averages StochasticHeat may use: exponential, simple, linearly weighted (0 before there are `s` values), none. -/
def smoothed (kind : MAKind) (s : Nat) (a : Nat → K) (i : Nat) : K :=
  match kind with
  | .ema => expMean s a i
  | .sma => winSum s i a / (min s (i + 1) : Nat)
  | .wma => if i + 1 < s then 0 else
      (∑ j ∈ Finset.range s, a (i + 1 - s + j) * ((j : K) + 1)) / ((s : K) * (s + 1) / 2)
  | .other => a i

/-- Every average the indicator may choose keeps a series within `[0, u]`. -/
theorem smoothed_within {kind : MAKind} {s : Nat} (hs : 0 < s) {u : K} (hu : 0 ≤ u) {a : Nat → K} (i : Nat)
    (h : ∀ j ≤ i, 0 ≤ a j ∧ a j ≤ u) : 0 ≤ smoothed kind s a i ∧ smoothed kind s a i ≤ u := by
  cases kind with
  | ema => rw [smoothed, ← emaK_expMean]; exact emaK_bounds hs a 0 u i h
  | sma =>
    obtain ⟨v, hv, h1, h2⟩ := smaF_bounds hs a i h
    rw [smaF_mean hs, XF.fin.injEq] at hv
    rw [smoothed, hv]
    exact ⟨h1, h2⟩
  | wma =>
    obtain ⟨v, hv, h1, h2⟩ := wmaF_bounds hs a i hu h
    rw [wmaF_fin hs, XF.fin.injEq] at hv
    rw [smoothed, hv]
    exact ⟨h1, h2⟩
  | other => exact h i (le_refl _)

theorem smoothed_fin (kind : MAKind) {s : Nat} (hs : 0 < s) (a : Nat → K) :
    (match (motive := MAKind → Nat → XF K) kind with
      | .ema => emaF (s : Int) (finF a)
      | .sma => smaF s (finF a)
      | .wma => wmaF s (finF a)
      | .other => finF a) = finF (smoothed kind s a) := by
  funext i
  cases kind with
  | ema => simp only [emaF_expMean]; rfl
  | sma => simp only []; rw [smaF_mean hs]; rfl
  | wma => simp only []; rw [wmaF_fin hs]; rfl
  | other => rfl

/-- The position of the close in the range of the last `p` candles, in per cent (0 when there is no range). -/
def StochAt (bs : List (Bar K)) (p i : Nat) (v : K) : Prop :=
  ∃ u l, IsGreatest {y | ∃ b ∈ window p i bs, b.h = y} u ∧ IsLeast {y | ∃ b ∈ window p i bs, b.l = y} l ∧
    v = (col Bar.c bs i - l) / (u - l) * 100

/-- **C85**, StochasticHeat: the fast line is the sum of the 28 smoothed stochastics over `inc, 2·inc, ..., 28·inc`
candles, divided by 100; the slow line is an average of it. `PlotNum` has no influence. Both lines stay between 0 and 28
when every close lies within its candle. Partial: the lines are meant to lie between 0 and `PlotNum`, see
`C85_plot_refuted`. -/
theorem C85_heat_partial {inc sf ss plot : Nat} (h1 : 0 < inc) (h2 : 0 < sf) (h3 : 0 < ss) (h4 : plot ≠ 0)
    {kind : MAKind} {it : Item (XF K)} {bs : List (Bar K)} (hb : Holds it bs)
    {d : List (Heat.Data (XF K))} (hd : (Heat inc sf ss plot kind).data it = .ok d) :
    ∃ st : Nat → Nat → K, (∀ k, 1 ≤ k → ∀ i < bs.length, StochAt bs (k * inc) i (st k i)) ∧
      let fast := fun i => (∑ k ∈ Finset.range 28, smoothed kind sf (st (k + 1)) i) / 100
      let slow := smoothed (match kind with | .other => .wma | k => k) ss fast
      (∀ (i : Nat) (r : Heat.Data (XF K)), d[i]? = some r → r.fast = .fin (fast i) ∧ r.slow = .fin (slow i)) ∧
      ((∀ b ∈ bs, b.WF) → ∀ i < bs.length, (0 ≤ fast i ∧ fast i ≤ 28) ∧ (0 ≤ slow i ∧ slow i ≤ 28)) := by
  obtain ⟨x, b, hx, hbs, hc⟩ := hb.cols
  have hper : ∀ k : Nat, ((k : Int) * (inc : Int)).toNat = k * inc := by
    intro k
    rw [← Nat.cast_mul, Int.toNat_natCast]
  have key : ∀ k : Nat, 1 ≤ k → ∃ v : Nat → K,
      stochF (k * inc) (Ind.cl x) (Ind.hi x) (Ind.lo x) = finF v ∧ ∀ i < bs.length, StochAt bs (k * inc) i (v i) := by
    intro k hk
    have hp : 0 < k * inc := Nat.mul_pos hk h1
    choose H L hH hL hv using fun i => stochF_fin hp (fun j => (b j).c) (fun j => (b j).h) (fun j => (b j).l) i
    refine ⟨fun i => ((b i).c - L i) / (H i - L i) * 100, ?_, fun i hi => ⟨H i, L i, ?_, ?_, ?_⟩⟩
    · funext i
      rw [hc.cl, hc.hi, hc.lo, hv i]
    · rw [hbs]; exact isGreatest_window _ b hi (hH i)
    · rw [hbs]; exact isLeast_window _ b hi (hL i)
    · rw [Holds.col_eq hbs hi]
  choose! st hst hat using key
  refine ⟨st, hat, ?_⟩
  intro fast slow
  have hheat : ∀ k, 1 ≤ k → heatF kind inc sf x k = finF (smoothed kind sf (st k)) := by
    intro k hk
    rw [← smoothed_fin kind h2 (st k), ← hst k hk]
    cases kind <;> simp only [heatF, hper, Int.toNat_natCast]
  have hsum : ∀ i k, heatSum kind inc sf x i k =
      .fin (∑ j ∈ Finset.range (k + 1), smoothed kind sf (st (j + 1)) i) := by
    intro i k
    induction k with
    | zero => rw [heatSum, hheat 1 (le_refl _)]; simp [finF]
    | succ k ih =>
      rw [heatSum, ih, hheat (k + 2) (by omega), Finset.sum_range_succ _ (k + 1)]
      simp only [finF, add_fin]
  have hplot : (plot : K) ≠ 0 := by exact_mod_cast h4
  have hfast : heatFast inc sf plot kind x = finF fast := by
    funext i
    rw [heatFast, hsum, fl_nat, div_fin hplot, fl_fin, div_fin (by norm_num), mul_fin]
    show XF.fin _ = XF.fin ((∑ k ∈ Finset.range 28, smoothed kind sf (st (k + 1)) i) / 100)
    congr 1
    push_cast
    field_simp
  have hslow : heatSlow inc sf ss plot kind x = finF slow := by
    cases kind with
    | ema => simp only [heatSlow, hfast]; exact smoothed_fin .ema h3 fast
    | sma => simp only [heatSlow, hfast, Int.toNat_natCast]; exact smoothed_fin .sma h3 fast
    | wma => simp only [heatSlow, hfast, Int.toNat_natCast]; exact smoothed_fin .wma h3 fast
    | other => simp only [heatSlow, hfast, Int.toNat_natCast]; exact smoothed_fin .wma h3 fast
  refine ⟨fun i r hr => ?_, fun hwf => ?_⟩
  · obtain ⟨-, -, rfl, -⟩ := at_index (b := b) (Heat.appends inc sf ss plot kind).yields hx hd hr
    exact ⟨congrFun hfast i, congrFun hslow i⟩
  · have hst01 : ∀ k, 1 ≤ k → ∀ i < bs.length, 0 ≤ st k i ∧ st k i ≤ 100 := by
      intro k hk i hi
      obtain ⟨u, l, hu, hl, e⟩ := hat k hk i hi
      rw [e]
      have hm : bs[i] ∈ window (k * inc) i bs := by
        have hp : 0 < k * inc := Nat.mul_pos hk h1
        rw [window, List.mem_iff_getElem]
        exact ⟨i - (i + 1 - k * inc), by simp; omega, by
          simp only [List.getElem_drop, List.getElem_take]
          congr 1; omega⟩
      have hcl : col Bar.c bs i = bs[i].c := by simp [col, hi]
      have hb' := hwf _ (List.getElem_mem hi)
      rw [hcl]
      exact pct_range (le_trans (hl.2 ⟨_, hm, rfl⟩) hb'.2.2.1) (le_trans hb'.2.2.2 (hu.2 ⟨_, hm, rfl⟩))
    have hf : ∀ i < bs.length, 0 ≤ fast i ∧ fast i ≤ 28 := by
      intro i hi
      have hs : ∀ k ∈ Finset.range 28, 0 ≤ smoothed kind sf (st (k + 1)) i ∧ smoothed kind sf (st (k + 1)) i ≤ 100 :=
        fun k _ => smoothed_within h2 (by norm_num) i fun j hj => hst01 (k + 1) (by omega) j (by omega)
      have e1 := Finset.sum_nonneg fun k hk => (hs k hk).1
      have e2 := Finset.sum_le_card_nsmul _ _ _ fun k hk => (hs k hk).2
      rw [Finset.card_range, nsmul_eq_mul] at e2
      show 0 ≤ (∑ k ∈ Finset.range 28, smoothed kind sf (st (k + 1)) i) / 100 ∧
        (∑ k ∈ Finset.range 28, smoothed kind sf (st (k + 1)) i) / 100 ≤ 28
      push_cast at e2
      constructor
      · positivity
      · linarith
    exact fun i hi => ⟨hf i hi, smoothed_within h3 (by norm_num) i fun j hj => hf j (by omega)⟩

/-- C85 refuted for `PlotNum`: with the default `PlotNum` 25 (and also with 14) the fast line of a rising pair of candles is
28. -/
theorem C85_plot_refuted : ∀ plot ∈ [25, 14], ∃ d : List (Heat.Data (XF ℚ)),
    (Heat 8 1 1 plot .sma).data (barItem (flatBars [1, 2])) = .ok d ∧ (d[1]?).map (·.fast) = some (.fin 28) := by
  intro plot hp
  refine ⟨((Heat 8 1 1 plot .sma).data (barItem (flatBars [1, 2]))).toOption.getD [], ?_, ?_⟩
  · revert plot; decide +kernel
  · revert plot; decide +kernel

/-- The indicator answers on well formed candles, with lines that are not constant. -/
example : ((Heat 1 1 2 25 .sma).data (barItem threeBars)).toOption.map (·.map fun r => (r.fast, r.slow)) =
      some [(.fin 14, .fin 14), (.fin (251 / 12), .fin (419 / 24)), (.fin 0, .fin (251 / 24))] ∧
    ∀ b ∈ threeBars, b.WF := by
  refine ⟨?_, ?_⟩
  · decide +kernel
  · simp only [threeBars, List.forall_mem_cons, Bar.WF]
    norm_num

end Verif.Props
