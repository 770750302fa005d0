import Verif.Props.Percent
import Verif.Props.Lines
import Verif.Props.WindowLines
import Verif.Props.TaReg
import Verif.Props.EmaLines
import Verif.Ind.Signals

/-!
# One quantity in several files (C128)

Several files compute what is the same quantity by name or by textbook. Which of them agree, number by number.
-/

set_option linter.unusedSectionVars false

namespace Verif.Props
open Verif Verif.Klines Verif.Ta Verif.Ind GoFloat XF

variable {F : Type}

/-- On every series both objects answer, and the two lines are the same numbers. -/
def SameLine [GoFloat F] (I J : Indicator F) (f : I.D → F) (g : J.D → F) : Prop :=
  ∀ it : Item F, ∃ di dj, I.data it = .ok di ∧ J.data it = .ok dj ∧ di.map f = dj.map g

theorem sameLine [GoFloat F] {I J : Indicator F} {okI okJ : Nat → Prop} {GI GJ} (hI : Yields I okI GI) (hJ : Yields J okJ GJ)
    (h1 : ∀ n, okI n) (h2 : ∀ n, okJ n) {f : I.D → F} {g : J.D → F} (h : ∀ x i, f (GI x i) = g (GJ x i)) : SameLine I J f g := by
  intro it
  obtain ⟨x, hx⟩ := candles_tab it
  refine ⟨_, _, (hI it _ x hx).1 (h1 _), (hJ it _ x hx).1 (h2 _), ?_⟩
  rw [map_tab, map_tab]
  exact tab_ext fun i _ => h x i

/-- **C128** The averages that other indicators show are those of `Ema` and `Sma` with the same period, the DIF line of `Macd` is
`AbsolutePriceOscillator`, and the AD line of `ChaikinOscillator` is `AccumulationDistribution`: the same numbers in any arithmetic,
rounding included. -/
theorem C128_same_lines [GoFloat F] (p q r s t : Int) :
    SameLine (Keltner (F := F) p).toIndicator (EMA p) Band.middle Rec.value ∧
    SameLine (XO (F := F) p q).toIndicator (EMA p) XO.Data.fast Rec.value ∧
    SameLine (XO (F := F) p q).toIndicator (EMA q) XO.Data.slow Rec.value ∧
    SameLine (Camarilla (F := F) p) (EMA p) Camarilla.Data.ema Rec.value ∧
    SameLine (Vegas (F := F) p q r s t).toIndicator (EMA p) Vegas.Data.value Rec.value ∧
    SameLine (Vegas (F := F) p q r s t).toIndicator (EMA q) Vegas.Data.short1 Rec.value ∧
    SameLine (Vegas (F := F) p q r s t).toIndicator (EMA r) Vegas.Data.short2 Rec.value ∧
    SameLine (Vegas (F := F) p q r s t).toIndicator (EMA s) Vegas.Data.long1 Rec.value ∧
    SameLine (Vegas (F := F) p q r s t).toIndicator (EMA t) Vegas.Data.long2 Rec.value ∧
    SameLine (MACD (F := F) p q r).toIndicator (APO p r).toIndicator MACD.Data.dif Rec.value ∧
    SameLine (Chaikin (F := F) p q).toIndicator AD Chaikin.Data.ad Rec.value ∧
    (0 ≤ p → SameLine (MAi (F := F) p) (SMA p) Rec.value Rec.value) := by
  have T : ∀ n : Nat, True := fun _ => trivial
  refine ⟨?_, ?_, ?_, ?_, ?_, ?_, ?_, ?_, ?_, ?_, ?_, fun hp => ?_⟩
  · exact sameLine (Keltner.appends p).yields (EMA.makes p).yields T T fun _ _ => rfl
  · exact sameLine (XO.makes p q).yields (EMA.makes p).yields T T fun _ _ => rfl
  · exact sameLine (XO.makes p q).yields (EMA.makes q).yields T T fun _ _ => rfl
  · exact sameLine (Camarilla.makes p).yields (EMA.makes p).yields T T fun _ _ => rfl
  · exact sameLine (Vegas.makes p q r s t).yields (EMA.makes p).yields T T fun _ _ => rfl
  · exact sameLine (Vegas.makes p q r s t).yields (EMA.makes q).yields T T fun _ _ => rfl
  · exact sameLine (Vegas.makes p q r s t).yields (EMA.makes r).yields T T fun _ _ => rfl
  · exact sameLine (Vegas.makes p q r s t).yields (EMA.makes s).yields T T fun _ _ => rfl
  · exact sameLine (Vegas.makes p q r s t).yields (EMA.makes t).yields T T fun _ _ => rfl
  · exact sameLine (MACD.makes p q r).yields (APO.makes p r).yields T T fun _ _ => rfl
  · exact sameLine (Chaikin.appends p q).yields AD.appends.yields T T fun _ _ => rfl
  · exact sameLine (MAi.appends p).yields (SMA.makes p).yields (fun _ => Or.inl hp) (fun _ => Or.inl hp) fun _ _ => rfl

/-- **C128** The middle Bollinger band is `Sma` of the same period, rounding included. -/
theorem C128_boll_middle [GoMath F] {p : Int} (hp : 0 < p) (k : Int) :
    SameLine (Boll (F := F) p k).toIndicator (SMA p) Boll.Data.middle Rec.value :=
  sameLine (Boll.makes p k).yields (SMA.makes p).yields (fun _ => Or.inl hp) (fun _ => Or.inl hp.le) fun _ _ => rfl

/-- **C128** The Keltner channel is the average of `Ema` plus and minus twice the average true range of `Atr`, with the same period,
in any arithmetic. -/
theorem C128_keltner [GoFloat F] (p : Int) {it : Item F} {k : List (Band F)} {e : List (Rec F)} {a : List (ATR.Data F)}
    (hk : (Keltner p).data it = .ok k) (he : (EMA p).data it = .ok e) (ha : (ATR p).data it = .ok a) {i : Nat} {r : Band F}
    {m : Rec F} {t : ATR.Data F} (hr : k[i]? = some r) (hm : e[i]? = some m) (ht : a[i]? = some t) :
    r.upper = m.value +. t.atr *. fl 2 ∧ r.middle = m.value ∧ r.lower = subF m.value (t.atr *. fl 2) := by
  obtain ⟨x, hx⟩ := candles_tab it
  rw [((Keltner.appends p).yields it _ x hx).1 trivial] at hk
  rw [((EMA.makes p).yields it _ x hx).1 trivial] at he
  rw [((ATR.makes p).yields it _ x hx).1 trivial] at ha
  rw [← Except.ok.inj hk, tab_getElem?] at hr
  rw [← Except.ok.inj he, tab_getElem?] at hm
  rw [← Except.ok.inj ha, tab_getElem?] at ht
  split at hr
  case isFalse => cases hr
  rename_i h
  rw [if_pos h] at hm ht
  rw [← Option.some.inj hr, ← Option.some.inj hm, ← Option.some.inj ht]
  exact ⟨rfl, rfl, rfl⟩

section Exact
variable {K : Type} [Field K] [LinearOrder K] [IsStrictOrderedRing K]

/-- **C128** `WilliamsR` is the K line of `StochasticOscillator` minus 100 wherever the window of the last `p` candles has a range.
Where all highs and lows of the window are one price, K is 0 and `WilliamsR` has no value. -/
theorem C128_williams {p : Nat} (hp : 1 ≤ p) {it : Item (XF K)} {bs : List (Bar K)} (hb : Holds it bs) {d : List (KD (XF K))}
    {w : List (Rec (XF K))} (hd : (Stoch p).data it = .ok d) (hw : (Williams p).data it = .ok w) {i : Nat} {r : KD (XF K)}
    {q : Rec (XF K)} (hr : d[i]? = some r) (hq : w[i]? = some q) :
    ∃ H L, IsGreatest {v | ∃ b ∈ window p i bs, b.h = v} H ∧ IsLeast {v | ∃ b ∈ window p i bs, b.l = v} L ∧
      (H ≠ L → ∃ v, r.k = .fin v ∧ q.value = .fin (v - 100)) ∧
      (H = L → r.k = .fin 0 ∧ ∀ v, q.value ≠ .fin v) := by
  obtain ⟨x, b, hx, hbs, hc⟩ := hb.cols
  obtain ⟨hi, -, rfl, hbi⟩ := at_index (b := b) (Williams.appends p).yields hx hw hq
  obtain ⟨H, L, hH, hL, hk⟩ := C44_stochastic_exact hp hb hd hr (b := b i) (by rw [hbs]; exact hbi)
  obtain ⟨H', eH, hH'⟩ := maxF_fin (p := p) (by omega) (fun j => (b j).h) i
  obtain ⟨L', eL, hL'⟩ := minF_fin (p := p) (by omega) (fun j => (b j).l) i
  have hH'' := isGreatest_window Bar.h b hi hH'
  have hL'' := isLeast_window Bar.l b hi hL'
  rw [← hbs] at hH'' hL''
  obtain rfl := hH.unique hH''
  obtain rfl := hL.unique hL''
  have e : (Williams.out p x i).value = (XF.fin H -. .fin (b i).c) /. (.fin H -. .fin L) *. fl (-100) := by
    show williamsF _ _ _ = _
    rw [williamsF, hc.hi, hc.lo, hc.cl, Int.toNat_natCast, eH, eL]
  refine ⟨H, L, hH, hL, fun h => ⟨_, hk, ?_⟩, fun h => ⟨by rw [hk, if_pos h], fun v hv => ?_⟩⟩
  · have h' : H - L ≠ 0 := sub_ne_zero.mpr h
    rw [e, if_neg h]
    have e1 : (fl (-100) : XF K) = .fin (-100) := by simp
    rw [e1]
    simp only [sub_fin, div_fin h', mul_fin, fin_inj]
    field_simp
    ring
  · rw [e, h] at hv
    have e1 : (fl (-100) : XF K) = .fin (-100) := by simp
    rw [e1] at hv
    simp only [sub_fin, sub_self] at hv
    revert hv
    show XF.mul (XF.div _ _) _ ≠ _
    simp only [XF.div, if_true, XF.infSign]
    split_ifs <;> simp [XF.mul, XF.infSign] <;> split_ifs <;> simp

/-- **C128** The RSV of `Kdj` is the K line of `StochasticOscillator` once the window is full and its range is at least one
millionth. With a smaller range RSV is 100, where K is 0 for a range of 0. -/
theorem C128_kdj {p : Nat} (hp : 1 ≤ p) {it : Item (XF K)} {bs : List (Bar K)} (hb : Holds it bs) {d : List (KD (XF K))}
    {w : List (KDJ.Data (XF K))} (hd : (Stoch p).data it = .ok d) (hw : (KDJ p).data it = .ok w) {i : Nat} (hi : p ≤ i + 1)
    {r : KD (XF K)} {q : KDJ.Data (XF K)} (hr : d[i]? = some r) (hq : w[i]? = some q) :
    ∃ H L, IsGreatest {v | ∃ b ∈ window p i bs, b.h = v} H ∧ IsLeast {v | ∃ b ∈ window p i bs, b.l = v} L ∧
      (1 / 1000000 ≤ H - L → q.rsv = r.k) ∧ (H - L < 1 / 1000000 → q.rsv = .fin 100) ∧ (H = L → r.k = .fin 0) := by
  obtain ⟨x, b, hx, hbs, hc⟩ := hb.cols
  obtain ⟨hi', -, e, hbi⟩ := at_index (b := b) (KDJ.makes p).yields hx hw hq
  rw [← hbs] at hbi
  obtain ⟨H, L, hH, hL, hk⟩ := C44_stochastic_exact hp hb hd hr hbi
  obtain ⟨H', L', hH', hL', hv⟩ := (C45_kdj_exact hp hb hw hq hbi).2.1 hi
  obtain rfl := hH.unique hH'
  obtain rfl := hL.unique hL'
  refine ⟨H, L, hH, hL, fun h => ?_, fun h => by rw [hv, if_pos h], fun h => by rw [hk, if_pos h]⟩
  have h0 : (0 : K) < 1 / 1000000 := by norm_num
  have hne : H ≠ L := fun h' => by rw [h', sub_self] at h; linarith
  rw [hv, if_neg (not_lt.mpr h), hk, if_neg hne]
  congr 1
  ring

theorem wilderK_rmaK (p : Nat) (t : Nat → K) (m : Nat) : wilderK p (rmaK p t p).2 t m = (rmaK p t (p + m)).2 := by
  induction m with
  | zero => rfl
  | succ m ih => rw [wilderK, ih, ← add_assoc, rmaK, if_neg (by omega)]

/-- **C128** The ATR line of the indicator `Atr` (also behind the Keltner channel) is the function `ta.Atr` (behind SuperTrend,
PivotPointSuperTrend and UTBot) from candle `p` on, if no candle lies wholly below the close before it. -/
theorem C128_atr {p : Nat} (hp : 2 ≤ p) {it : Item (XF K)} {bs : List (Bar K)} (hb : Holds it bs) (hwf : ∀ b ∈ bs, b.l ≤ b.h)
    (hgap : ∀ j b b', bs[j]? = some b → bs[j + 1]? = some b' → b.c ≤ b'.h) {d : List (ATR.Data (XF K))}
    (hd : (ATR p).data it = .ok d) {a : List (XF K)}
    (ha : Ta.Atr (it.candles.map Candle.high) (it.candles.map Candle.low) (it.candles.map Candle.close) p = .ok a)
    {i : Nat} (hi : p ≤ i) {r : ATR.Data (XF K)} {v : XF K} (hr : d[i]? = some r) (hv : a[i]? = some v) : r.atr = v := by
  obtain ⟨x, b, hx, hbs, hc⟩ := hb.cols
  obtain ⟨hin, -, rfl, -⟩ := at_index (b := b) (ATR.makes p).yields hx hd hr
  have hin' : p < bs.length := by omega
  rw [hx, map_tab, map_tab, map_tab, show (fun i => (x i).high) = finF fun i => (b i).h from hc.hi,
    show (fun i => (x i).low) = finF fun i => (b i).l from hc.lo,
    show (fun i => (x i).close) = finF fun i => (b i).c from hc.cl, Atr_tab p _ hp, if_pos hin'] at ha
  rw [← Except.ok.inj ha, tab_getElem?_lt hin, atrF_fin (by omega), if_neg (by omega), wilderK_rmaK,
    show p + (i - p) = i by omega] at hv
  rw [← Option.some.inj hv]
  show rmaF (p : Int) (trI x) i = _
  rw [trI_fin hc, rmaF_fin (by omega)]
  congr 1
  refine congrArg Prod.snd (rmaK_congr fun j h1 h2 => ?_)
  obtain ⟨j, rfl⟩ : ∃ k, j = k + 1 := ⟨j - 1, by omega⟩
  have e : ∀ k, k < bs.length → bs[k]? = some (b k) := fun k hk => by rw [hbs]; exact tab_getElem?_lt hk
  have g1 : (b (j + 1)).l ≤ (b (j + 1)).h := hwf _ (List.mem_of_getElem? (e (j + 1) (by omega)))
  have g2 := hgap j _ _ (e j (by omega)) (e (j + 1) (by omega))
  simp only [trK, Nat.add_eq_zero_iff, one_ne_zero, and_false, if_false, Nat.add_sub_cancel]
  generalize b (j + 1) = y at g1 g2
  rw [abs_of_nonpos (show (b j).c - y.h ≤ 0 by linarith)]
  apply le_antisymm
  · refine max_le (le_max_of_le_left (le_max_left _ _)) (max_le (le_max_of_le_left (le_max_of_le_right (by linarith))) ?_)
    exact le_max_of_le_left (le_max_of_le_right (by linarith))
  · refine max_le (max_le (le_max_left _ _) (le_max_of_le_right (le_max_of_le_left (by linarith)))) (abs_le.mpr ⟨?_, ?_⟩)
    · have := le_max_left (y.h - (b j).c) (y.l - (b j).c)
      have := le_max_right (y.h - y.l) (max (y.h - (b j).c) (y.l - (b j).c))
      linarith
    · have := le_max_left (y.h - y.l) (max (y.h - (b j).c) (y.l - (b j).c))
      linarith

/-- **C128** `CCI` with equal periods and `AiCoinCCI` agree from candle `p` on if the close is the typical price of every candle
(`high + low = 2 close`) and the closes of the window are not all equal; if they are, `AiCoinCCI` is 0 and `CCI` has no value. -/
theorem C128_cci {p : Nat} (hp : 0 < p) {it : Item (XF K)} {bs : List (Bar K)} (hb : Holds it bs)
    (ht : ∀ b ∈ bs, b.h + b.l = 2 * b.c) {d w : List (Rec (XF K))} (hd : (CCIi p p).data it = .ok d)
    (hw : (AiCCI p).data it = .ok w) {i : Nat} (hi : p ≤ i + 1) {r q : Rec (XF K)} (hr : d[i]? = some r) (hq : w[i]? = some q) :
    r.value = q.value ∨ r.value = .nan ∧ q.value = .fin 0 := by
  have ht' : typical bs = col Bar.c bs := by
    funext j
    rw [typical, col, col, col]
    cases hj : bs[j]? with
    | none => simp
    | some b =>
      have := ht b (List.mem_of_getElem? hj)
      simp only [Option.map_some, Option.getD_some]
      rw [this]
      ring
  obtain ⟨-, h1, h2⟩ := C83_cci hp hp hb hd hr
  have h3 := C83_aicoin_cci hp hb hw hq
  have hi' : ¬ i + 1 < p := by omega
  simp only [if_neg hi'] at h3
  have em : winSum p i (col Bar.c bs) / ((min p (i + 1) : Nat) : K) = (∑ j ∈ Finset.Ico (i + 1 - p) (i + 1), col Bar.c bs j) / p := by
    rw [winSum, Nat.min_eq_left hi]
  rw [ht', em] at h1 h2
  by_cases h : (∑ j ∈ Finset.Ico (i + 1 - p) (i + 1), |col Bar.c bs j -
      (∑ j ∈ Finset.Ico (i + 1 - p) (i + 1), col Bar.c bs j) / p|) / p = 0
  · exact Or.inr ⟨h2 hi h, by rw [h3, h]; simp⟩
  · exact Or.inl ((h1 hi h).trans h3.symm)

theorem bestLine_shift {n : Nat} {y : Nat → K} {s m b m' b' : K} (h : IsBestLine (tab n fun j => ((j : K), y j)) m b)
    (h' : IsBestLine (tab n fun j => (s + (j : K), y j)) m' b') : m' = m ∧ b' + m' * s = b := by
  have e : ∀ u v : K, ptsErr (tab n fun j => (s + (j : K), y j)) u v = ptsErr (tab n fun j => ((j : K), y j)) u (v + u * s) := by
    intro u v
    rw [ptsErr_tab, ptsErr_tab]
    exact Finset.sum_congr rfl fun j _ => by ring
  have h1 := (h m' (b' + m' * s)).1
  have h2 := (h' m (b - m * s)).1
  rw [e, e, sub_add_cancel] at h2
  exact (h m' (b' + m' * s)).2 (le_antisymm h2 h1)

/-- **C128** `LinearReg` (behind the regression candles) and `MovingLinearRegressionUsingLeastSquare` over the positions 0, 1, 2, …
(the projection oscillator uses its slopes) are the same line once the window is full: equal slopes and equal end points. -/
theorem C128_regression {p : Nat} (hp : 2 ≤ p) (xs : List K) (hl : p ≤ xs.length) :
    ∃ slopes lines ms bs rs, LinearRegSlope (fins xs) p = .ok slopes ∧ LinearReg (fins xs) p = .ok lines ∧
      MovingLeastSquare p (fins (tab xs.length Nat.cast)) (fins xs) = .ok (ms, bs) ∧
      MovingLinearRegressionUsingLeastSquare p (fins (tab xs.length Nat.cast)) (fins xs) = .ok rs ∧
      ∀ i, p ≤ i + 1 → i < xs.length → (∃ v : K, slopes[i]? = some (.fin v)) ∧ slopes[i]? = ms[i]? ∧ lines[i]? = rs[i]? := by
  obtain ⟨sl, ic, en, h1, -, h3, -, h4⟩ := (C23_linear_regression p hp xs).2 hl
  obtain ⟨ms, bs, rs, g1, g2, -, -, -, g3⟩ := C24_moving_least_square p (by omega) (tab xs.length (Nat.cast : Nat → K)) xs (by simp)
  refine ⟨_, _, ms, bs, rs, h1, h3, g1, g2, fun i hi hn => ?_⟩
  obtain ⟨a, ha⟩ := exists_tabK xs
  have hz : (tab xs.length (Nat.cast : Nat → K)).zip xs = tab xs.length fun j => ((j : K), a j) := by
    conv_lhs => rw [ha]
    rw [tab_length, List.zip, zipWith_tab, Nat.min_self]
  have hw : window p i ((tab xs.length (Nat.cast : Nat → K)).zip xs) =
      tab p fun j => (((i + 1 - p : Nat) : K) + (j : K), a (i + 1 - p + j)) := by
    rw [hz, window_tab _ hn, show i + 1 - (i + 1 - p) = p by omega]
    exact tab_ext fun j _ => by push_cast; rfl
  obtain ⟨m, b, e1, -, e3, e4⟩ := g3 i i (tab_getElem?_lt hn) (by
    rw [hw]
    refine ⟨_, mem_tab.mpr ⟨0, by omega, rfl⟩, _, mem_tab.mpr ⟨1, by omega, rfl⟩, ?_⟩
    simp)
  obtain ⟨f1, f2⟩ := h4 i hi hn
  rw [hw] at e4
  have hw' : asPoints (window p i xs) = tab p fun j => ((j : K), a (i + 1 - p + j)) := by
    conv_lhs => rw [ha]
    rw [window_tab _ hn, show i + 1 - (i + 1 - p) = p by omega, asPoints_tab]
  rw [hw'] at f1
  obtain ⟨k1, k2⟩ := bestLine_shift f1 e4
  rw [e1, e3, fins_tab, tab_getElem?_lt hn, fins_tab, tab_getElem?_lt hn, k1]
  refine ⟨⟨_, rfl⟩, rfl, ?_⟩
  rw [f2, ← k2, k1]
  have : ((i + 1 - p : Nat) : K) = i + 1 - p := by
    rw [Nat.cast_sub hi]; push_cast; rfl
  rw [this]
  congr 2
  ring

/-- **C128** The percentage price oscillator is the absolute one as a percentage of the slow average. -/
theorem C128_ppo {p q s : Nat} {it : Item (XF K)} {bs : List (Bar K)} (hb : Holds it bs) {d : List (PPO.Data (XF K))}
    {w : List (Rec (XF K))} {e : List (Rec (XF K))} (hd : (PPO p q s).data it = .ok d) (hw : (APO p q).data it = .ok w)
    (he : (EMA q).data it = .ok e) {i : Nat} {r : PPO.Data (XF K)} {v m : Rec (XF K)} (hr : d[i]? = some r) (hv : w[i]? = some v)
    (hm : e[i]? = some m) : ∃ a b, v.value = .fin a ∧ m.value = .fin b ∧ r.ppo = .fin (a / b * 100) := by
  obtain ⟨h1, -, -⟩ := C82_ppo hb hd hr
  have h2 := C82_apo hb hw hv
  obtain ⟨x, hx, hc⟩ := hb.full
  obtain ⟨-, -, rfl⟩ := at_full (EMA.makes q).yields hx he hm
  refine ⟨_, _, h2, ?_, h1⟩
  show emaF q (cl x) i = _
  rw [hc.cl, emaF_expMean]

end Exact

/-- **C128** The deviation of the Bollinger bands is `ta.StdDev` of the closes with factor 1 once the window is full, if the variance is
at least 10⁻¹⁴; below that `StdDev` is 0. -/
theorem C128_boll_deviation {p : Nat} (hp : 1 ≤ p) {k : Int} {it : Item (XF ℝ)} {bs : List (Bar ℝ)} (hb : Holds it bs)
    {d : List (Boll.Data (XF ℝ))} (hd : (Boll p k).data it = .ok d) {s : List (XF ℝ)}
    (hs : StdDev (fins (bs.map Bar.c)) p (.fin 1) = .ok s) {i : Nat} (hi : p ≤ i + 1) {r : Boll.Data (XF ℝ)} {v : XF ℝ}
    (hr : d[i]? = some r) (hv : s[i]? = some v) :
    (1 / 10 ^ 14 ≤ pvar (window p i (bs.map Bar.c)) → r.md = v) ∧
    (pvar (window p i (bs.map Bar.c)) < 1 / 10 ^ 14 → v = .fin 0) := by
  obtain ⟨-, h1, -⟩ := C48_boll hb hd hr
  rw [C22_stddev p hp] at hs
  split at hs
  · have hs := Except.ok.inj hs
    rw [← hs, fins_tab, tab_getElem?] at hv
    split at hv
    · have hv := Option.some.inj hv
      rw [h1, ← hv]
      have hi' : ¬ i + 1 < p := by omega
      simp only [if_neg hi', mul_one]
      exact ⟨fun h => by rw [if_neg (not_lt.mpr h)], fun h => by rw [if_pos h]⟩
    · cases hv
  · cases hs

/-! ## Same name, other numbers -/

/-- **C128** After a gap down the two average true ranges are not the same number: `Atr` says 1, `ta.Atr` 9/2. -/
theorem C128_atr_refuted :
    ((ATR 2).data (barItem [(⟨9, 11, 9, 10, 0⟩ : Bar ℚ), ⟨10, 11, 9, 10, 0⟩, ⟨2, 3, 2, 2, 0⟩])).map (List.map ATR.Data.atr) =
      .ok [.fin 0, .fin 1, .fin 1] ∧
    Ta.Atr (F := XF ℚ) [.fin 11, .fin 11, .fin 3] [.fin 9, .fin 9, .fin 2] [.fin 10, .fin 10, .fin 2] 2 =
      .ok [.fin 0, .fin 0, .fin (9 / 2)] := by
  refine ⟨by decide +kernel, by decide +kernel⟩

/-- **C128** On ordinary candles the two commodity channel indexes differ. -/
theorem C128_cci_refuted :
    ((CCIi 3 3).data (barItem threeBars)).map (List.map Rec.value) ≠ ((AiCCI 3).data (barItem threeBars)).map (List.map Rec.value) := by
  decide +kernel

/-- **C128** The middle of a Donchian channel of 26 candles is not the base line of the Ichimoku cloud: the channel takes closes, the
cloud highs and lows. -/
theorem C128_base_line_refuted :
    ((Donchian 26).data (barItem threeBars)).map (List.map Band.middle) = .ok [.fin 2, .fin 3, .fin (5 / 2)] ∧
    ((Ichimoku 9 52 26).data (barItem threeBars)).map (List.map Ichimoku.Data.base) = .ok [.fin 2, .fin 3, .fin 3] := by
  refine ⟨by decide +kernel, by decide +kernel⟩

/-! ## The premises are met -/

example : (∀ b ∈ [(⟨9, 11, 9, 10, 0⟩ : Bar ℚ), ⟨10, 12, 9, 11, 0⟩, ⟨11, 14, 10, 12, 0⟩], b.l ≤ b.h ∧ 10 ≤ b.c ∧ b.c ≤ 12 ∧ b.c + 1 ≤ b.h) ∧
    ((ATR 2).data (barItem [(⟨9, 11, 9, 10, 0⟩ : Bar ℚ), ⟨10, 12, 9, 11, 0⟩, ⟨11, 14, 10, 12, 0⟩])).map (List.map ATR.Data.atr) =
      .ok [.fin 0, .fin (3 / 2), .fin (11 / 4)] ∧
    Ta.Atr (F := XF ℚ) [.fin 11, .fin 12, .fin 14] [.fin 9, .fin 9, .fin 10] [.fin 10, .fin 11, .fin 12] 2 =
      .ok [.fin 0, .fin 0, .fin (11 / 4)] := by
  refine ⟨by decide +kernel, by decide +kernel, by decide +kernel⟩

/-- Candles whose close is the middle of the range. -/
def midBars : List (Bar ℚ) := [⟨1, 3, 1, 2, 10⟩, ⟨2, 5, 3, 4, 20⟩, ⟨4, 4, 2, 3, 30⟩]

example : Holds (barItem midBars) midBars ∧ (∀ b ∈ midBars, b.h + b.l = 2 * b.c) ∧
    ((CCIi 2 2).data (barItem midBars)).map (List.map Rec.value) = .ok [.fin 0, .fin (200 / 3), .fin (-200 / 3)] ∧
    ((AiCCI 2).data (barItem midBars)).map (List.map Rec.value) = .ok [.fin 0, .fin (200 / 3), .fin (-200 / 3)] := by
  refine ⟨holds_barItem _, by decide +kernel, by decide +kernel, by decide +kernel⟩

example : ((APO 1 3).data (barItem threeBars)).map (List.map Rec.value) = .ok [.fin 0, .fin 1, .fin (-1)] ∧
    ((EMA 3).data (barItem threeBars)).map (List.map Rec.value) = .ok [.fin 2, .fin 3, .fin 2] ∧
    ((PPO 1 3 2).data (barItem threeBars)).map (List.map PPO.Data.ppo) = .ok [.fin 0, .fin (100 / 3), .fin (-50)] := by
  refine ⟨by decide +kernel, by decide +kernel, by decide +kernel⟩

example : LinearReg (F := XF ℚ) [.fin 1, .fin 3, .fin 2, .fin 7] 3 = .ok [.fin 0, .fin 0, .fin (5 / 2), .fin 6] ∧
    (MovingLinearRegressionUsingLeastSquare 3 [.fin 0, .fin 1, .fin 2, .fin 3] [.fin 1, .fin 3, .fin 2, .fin 7] : Go (List (XF ℚ))) =
      .ok [.nan, .fin 3, .fin (5 / 2), .fin 6] := by
  refine ⟨by decide +kernel, by decide +kernel⟩

example : (1 / 10 ^ 14 : ℝ) ≤ pvar (window 2 2 [1, 2, 4]) := by
  norm_num [pvar, window, mean]

example : ((Stoch 2).data (barItem threeBars)).map (List.map KD.k) = .ok [.fin 50, .fin 75, .fin 0] ∧
    ((Williams 2).data (barItem threeBars)).map (List.map Rec.value) = .ok [.fin (-50), .fin (-25), .fin (-100)] ∧
    ((KDJ 2).data (barItem threeBars)).map (List.map KDJ.Data.rsv) = .ok [.fin 0, .fin 75, .fin 0] := by
  refine ⟨by decide +kernel, by decide +kernel, by decide +kernel⟩

end Verif.Props
