import Verif.Props.VolumeLines

/-!
# Lines built from exponential averages (C82)

Exact arithmetic. `expMean` is the textbook formula of the exponential average with smoothing factor `2 / (p + 1)`,
written out as a weighted sum.
-/

set_option linter.unusedSectionVars false

namespace Verif.Props
open Verif Verif.Klines Verif.Ta Verif.Ind GoFloat XF

variable {K : Type} [Field K] [LinearOrder K] [IsStrictOrderedRing K]

/-- The exponential average of `a 0 .. a i` with smoothing factor `s = 2 / (p + 1)`: value `a j` has weight
`s (1 - s)^(i - j)`, the first value `(1 - s)^i`. -/
def expMean (p : Nat) (a : Nat → K) (i : Nat) : K :=
  (1 - 2 / ((p : K) + 1)) ^ i * a 0 +
    ∑ j ∈ Finset.Ico 1 (i + 1), 2 / ((p : K) + 1) * (1 - 2 / ((p : K) + 1)) ^ (i - j) * a j

theorem expMean_succ (p : Nat) (a : Nat → K) (i : Nat) : expMean p a (i + 1) =
    2 / ((p : K) + 1) * a (i + 1) + (1 - 2 / ((p : K) + 1)) * expMean p a i := by
  rw [expMean, expMean, Finset.sum_Ico_succ_top (by omega), mul_add, Finset.mul_sum, Nat.sub_self, pow_zero]
  have : ∑ j ∈ Finset.Ico 1 (i + 1), 2 / ((p : K) + 1) * (1 - 2 / ((p : K) + 1)) ^ (i + 1 - j) * a j =
      ∑ j ∈ Finset.Ico 1 (i + 1), (1 - 2 / ((p : K) + 1)) * (2 / ((p : K) + 1) * (1 - 2 / ((p : K) + 1)) ^ (i - j) * a j) :=
    Finset.sum_congr rfl fun j hj => by
      have := Finset.mem_Ico.mp hj
      rw [show i + 1 - j = (i - j) + 1 by omega, pow_succ]
      ring
  rw [this]
  ring

theorem emaK_expMean (p : Nat) (a : Nat → K) (i : Nat) : emaK p a i = expMean p a i := by
  induction i with
  | zero => simp [emaK, expMean]
  | succ k ih =>
    have h : ((p : K) + 1) ≠ 0 := by
      have : (0 : K) ≤ (p : K) := Nat.cast_nonneg p
      positivity
    rw [emaK, expMean_succ, ih]
    field_simp
    ring

theorem emaF_expMean (p : Nat) (a : Nat → K) : emaF p (finF a) = finF (expMean p a) := by
  funext i
  rw [emaF_fin, emaK_expMean]

theorem expMean_const {p : Nat} {a : Nat → K} {c : K} {i : Nat} (h : ∀ j ≤ i, a j = c) : expMean p a i = c := by
  induction i with
  | zero => simp [expMean, h]
  | succ k ih => rw [expMean_succ, ih fun j hj => h j (by omega), h _ (le_refl _)]; ring

/-- The columns of a bar series, continued with zeros. -/
structure FullCols (x : Nat → Candle (XF K)) (bs : List (Bar K)) : Prop where
  op : Ind.op x = finF (col Bar.o bs)
  hi : Ind.hi x = finF (col Bar.h bs)
  lo : Ind.lo x = finF (col Bar.l bs)
  cl : Ind.cl x = finF (col Bar.c bs)
  vo : Ind.vo x = finF (col Bar.v bs)

theorem Holds.full {it : Item (XF K)} {bs : List (Bar K)} (h : Holds it bs) :
    ∃ x, it.candles = tab bs.length x ∧ FullCols x bs := by
  obtain ⟨x, b, hx, hbs, hc, hz⟩ := h.cols₀
  have key : ∀ f : Bar K → K, f ⟨0, 0, 0, 0, 0⟩ = 0 → (fun i => f (b i)) = col f bs := by
    intro f hf
    funext i
    by_cases hi : i < bs.length
    · exact (Holds.col_eq hbs hi f).symm
    · rw [hz i (by omega), hf, col, List.getElem?_eq_none (by omega)]; rfl
  refine ⟨x, hx, ?_, ?_, ?_, ?_, ?_⟩
  · rw [hc.op, key Bar.o rfl]
  · rw [hc.hi, key Bar.h rfl]
  · rw [hc.lo, key Bar.l rfl]
  · rw [hc.cl, key Bar.c rfl]
  · rw [hc.vo, key Bar.v rfl]

theorem at_full {I : Indicator (XF K)} {ok} {G} (hy : Yields I ok G) {it : Item (XF K)} {n : Nat}
    {x : Nat → Candle (XF K)} (hx : it.candles = tab n x) {d : List I.D}
    (hd : I.data it = .ok d) {i : Nat} {r : I.D} (hr : d[i]? = some r) : i < n ∧ ok n ∧ r = G x i :=
  let ⟨a, b, c, _⟩ := at_index (b := fun _ => (⟨0, 0, 0, 0, 0⟩ : Bar K)) hy hx hd hr
  ⟨a, b, c⟩

section
variable {it : Item (XF K)} {bs : List (Bar K)} (hb : Holds it bs)
include hb

/-- **C82**, Ema: the exponential average of the closes. -/
theorem C82_ema {p : Nat} {d : List (Rec (XF K))} (hd : (EMA p).data it = .ok d) {i : Nat} {r : Rec (XF K)}
    (hr : d[i]? = some r) : r.value = .fin (expMean p (col Bar.c bs) i) := by
  obtain ⟨x, hx, hc⟩ := hb.full
  obtain ⟨-, -, rfl⟩ := at_full (EMA.makes p).yields hx hd hr
  show emaF p (cl x) i = _
  rw [hc.cl, emaF_expMean]

/-- **C82**, Dema: twice the exponential average minus the exponential average of the exponential average. -/
theorem C82_dema {p : Nat} {d : List (Rec (XF K))} (hd : (DEMA p).data it = .ok d) {i : Nat} {r : Rec (XF K)}
    (hr : d[i]? = some r) :
    r.value = .fin (2 * expMean p (col Bar.c bs) i - expMean p (expMean p (col Bar.c bs)) i) := by
  obtain ⟨x, hx, hc⟩ := hb.full
  obtain ⟨-, -, rfl⟩ := at_full (DEMA.makes p).yields hx hd hr
  show demaF p (cl x) i = _
  rw [demaF, hc.cl, emaF_expMean, emaF_expMean]
  simp only [finF, fl_fin, mul_fin, subF_fin, XF.fin.injEq]
  push_cast; ring

/-- **C82**, Macd: `DIF` is the short minus the long average of the closes, `DEA` the average of `DIF`, `MACD` twice
their difference. -/
theorem C82_macd {p q s : Nat} {d : List (MACD.Data (XF K))} (hd : (MACD p s q).data it = .ok d) {i : Nat}
    {r : MACD.Data (XF K)} (hr : d[i]? = some r) :
    let dif := fun j => expMean p (col Bar.c bs) j - expMean q (col Bar.c bs) j
    r.dif = .fin (dif i) ∧ r.dea = .fin (expMean s dif i) ∧ r.macd = .fin (2 * (dif i - expMean s dif i)) := by
  obtain ⟨x, hx, hc⟩ := hb.full
  obtain ⟨-, -, rfl⟩ := at_full (MACD.makes p s q).yields hx hd hr
  have e : difF p q x = finF fun j => expMean p (col Bar.c bs) j - expMean q (col Bar.c bs) j := by
    funext j
    rw [difF, hc.cl, emaF_expMean, emaF_expMean]
    simp only [finF, subF_fin]
  refine ⟨?_, ?_, ?_⟩
  · show difF p q x i = _
    rw [e]
  · show emaF s (difF p q x) i = _
    rw [e, emaF_expMean]
  · show (difF p q x i -. emaF s (difF p q x) i) *. fl 2 = _
    rw [e, emaF_expMean]
    simp only [finF, fl_fin, mul_fin, sub_fin, XF.fin.injEq]
    push_cast; ring

/-- **C82**, AbsolutePriceOscillator: fast minus slow average of the closes. -/
theorem C82_apo {p q : Nat} {d : List (Rec (XF K))} (hd : (APO p q).data it = .ok d) {i : Nat} {r : Rec (XF K)}
    (hr : d[i]? = some r) : r.value = .fin (expMean p (col Bar.c bs) i - expMean q (col Bar.c bs) i) := by
  obtain ⟨x, hx, hc⟩ := hb.full
  obtain ⟨-, -, rfl⟩ := at_full (APO.makes p q).yields hx hd hr
  show subF (emaF p (cl x) i) (emaF q (cl x) i) = _
  rw [hc.cl, emaF_expMean, emaF_expMean]
  simp only [finF, subF_fin]

/-- **C82**, AwesomeOscillator: the 5-average minus the 34-average of the middles of the candles. -/
theorem C82_awesome {d : List (Rec (XF K))} (hd : Awesome.data it = .ok d) {i : Nat} {r : Rec (XF K)}
    (hr : d[i]? = some r) :
    let mid := fun j => (col Bar.h bs j + col Bar.l bs j) / 2
    r.value = .fin (expMean 5 mid i - expMean 34 mid i) := by
  obtain ⟨x, hx, hc⟩ := hb.full
  obtain ⟨-, -, rfl⟩ := at_full Awesome.appends.yields hx hd hr
  have e : medF x = finF fun j => (col Bar.h bs j + col Bar.l bs j) / 2 := by
    funext j
    rw [medF, hc.lo, hc.hi]
    simp only [finF, fl_fin, add_fin]
    rw [div_fin (by norm_num), mul_fin]
    congr 1
    push_cast; ring
  show subF (emaF ((5 : Nat) : Int) (medF x) i) (emaF ((34 : Nat) : Int) (medF x) i) = _
  rw [e, emaF_expMean, emaF_expMean]
  simp only [finF, subF_fin]

/-- **C82**, PercentagePriceOscillator: fast minus slow average in percent of the slow one (0 where that is 0), its
average, and their difference. -/
theorem C82_ppo {p q s : Nat} {d : List (PPO.Data (XF K))} (hd : (PPO p q s).data it = .ok d) {i : Nat}
    {r : PPO.Data (XF K)} (hr : d[i]? = some r) :
    let line := fun j => (expMean p (col Bar.c bs) j - expMean q (col Bar.c bs) j) / expMean q (col Bar.c bs) j * 100
    r.ppo = .fin (line i) ∧ r.signal = .fin (expMean s line i) ∧ r.histogram = .fin (line i - expMean s line i) := by
  obtain ⟨x, hx, hc⟩ := hb.full
  obtain ⟨-, -, rfl⟩ := at_full (PPO.appends p q s).yields hx hd hr
  have e : ppoF p q x = finF fun j => (expMean p (col Bar.c bs) j - expMean q (col Bar.c bs) j) /
      expMean q (col Bar.c bs) j * 100 := by
    funext j
    rw [ppoF, hc.cl, emaF_expMean, emaF_expMean]
    simp only [finF, subF_fin, safeDiv_fin_eq, fl_fin, mul_fin]
    push_cast; rfl
  refine ⟨?_, ?_, ?_⟩
  · show ppoF p q x i = _
    rw [e]
  · show emaF s (ppoF p q x) i = _
    rw [e, emaF_expMean]
  · show subF (ppoF p q x i) (emaF s (ppoF p q x) i) = _
    rw [e, emaF_expMean]
    simp only [finF, subF_fin]

/-- **C82**, VolumeOscillator: short minus long average of the volumes in percent of the long one (0 where that is
0). -/
theorem C82_volume_oscillator {p q : Nat} {d : List (Rec (XF K))} (hd : (VolOsc p q).data it = .ok d) {i : Nat}
    {r : Rec (XF K)} (hr : d[i]? = some r) :
    r.value = .fin ((expMean p (col Bar.v bs) i - expMean q (col Bar.v bs) i) / expMean q (col Bar.v bs) i * 100) := by
  obtain ⟨x, hx, hc⟩ := hb.full
  obtain ⟨-, -, rfl⟩ := at_full (VolOsc.makes p q).yields hx hd hr
  have e : nzVol x = finF (col Bar.v bs) := by
    funext j
    rw [nzVol, hc.vo]
    simp [finF, Nz]
  show safeDiv (subF (emaF p (nzVol x) i) (emaF q (nzVol x) i)) (emaF q (nzVol x) i) *. fl 100 = _
  rw [e, emaF_expMean, emaF_expMean]
  simp only [finF, subF_fin, safeDiv_fin_eq, fl_fin, mul_fin]
  push_cast; rfl

/-- **C82**, ChaikinOscillator: fast minus slow average of the accumulation/distribution line, which is stored with
it. -/
theorem C82_chaikin (hw : ∀ b ∈ bs, b.l ≤ b.c ∧ b.c ≤ b.h) {p q : Nat} {d : List (Chaikin.Data (XF K))}
    (hd : (Chaikin p q).data it = .ok d) {i : Nat} {r : Chaikin.Data (XF K)} (hr : d[i]? = some r) :
    let ad := fun j => ∑ k ∈ Finset.range (j + 1), col Bar.v bs k * closeLocation bs k
    r.ad = .fin (ad i) ∧ r.value = .fin (expMean p ad i - expMean q ad i) := by
  obtain ⟨x, b, hx, hbs, hc, hz⟩ := hb.cols₀
  obtain ⟨-, -, rfl⟩ := at_full (Chaikin.appends p q).yields hx hd hr
  have e : adF x = finF fun j => ∑ k ∈ Finset.range (j + 1), col Bar.v bs k * closeLocation bs k := by
    have ec : ∀ (f : Bar K → K) (j : Nat), f ⟨0, 0, 0, 0, 0⟩ = 0 → col f bs j = f (b j) := fun f j hf => by
      by_cases hj : j < bs.length
      · exact Holds.col_eq hbs hj f
      · rw [hz j (by omega), hf, col, List.getElem?_eq_none (by omega)]; rfl
    have hw' : ∀ j, (b j).l ≤ (b j).c ∧ (b j).c ≤ (b j).h := fun j => by
      by_cases hj : j < bs.length
      · exact hw _ (by rw [hbs]; exact mem_tab.mpr ⟨j, hj, rfl⟩)
      · rw [hz j (by omega)]; exact ⟨le_refl _, le_refl _⟩
    funext j
    induction j with
    | zero =>
      have := adVal_fin hc 0 (hw' 0) 0
      rw [adF, show (fl 0 : XF K) = .fin 0 by simp] at *
      rw [this]
      simp [finF, closeLocation, ec]
    | succ k ih =>
      rw [adF, ih, finF, adVal_fin hc (k + 1) (hw' _), finF, Finset.sum_range_succ _ (k + 1)]
      simp [closeLocation, ec]
  refine ⟨?_, ?_⟩
  · show adF x i = _
    rw [e]
  · show subF (emaF p (adF x) i) (emaF q (adF x) i) = _
    rw [e, emaF_expMean, emaF_expMean]
    simp only [finF, subF_fin]

/-- **C82**, TraderXO: the two averages of the closes. -/
theorem C82_trader_xo {p q : Nat} {d : List (XO.Data (XF K))} (hd : (XO p q).data it = .ok d) {i : Nat}
    {r : XO.Data (XF K)} (hr : d[i]? = some r) :
    r.fast = .fin (expMean p (col Bar.c bs) i) ∧ r.slow = .fin (expMean q (col Bar.c bs) i) := by
  obtain ⟨x, hx, hc⟩ := hb.full
  obtain ⟨-, -, rfl⟩ := at_full (XO.makes p q).yields hx hd hr
  refine ⟨?_, ?_⟩
  · show emaF p (cl x) i = _
    rw [hc.cl, emaF_expMean]
  · show emaF q (cl x) i = _
    rw [hc.cl, emaF_expMean]

/-- **C82**, StochRsi: the position of the relative strength between its extremes over the last `q` candles, in per
cent, averaged exponentially once over `k` for the first line and once more over `d` for the second. The relative
strength is that reported by `Rsi` with period `p`; where it stood still the position counts as 0. -/
theorem C82_stoch_rsi {k d p q : Nat} (hq : 1 ≤ q) {rs : List (Rec (XF K))} (hrs : (RSI p).data it = .ok rs)
    {ds : List (KD (XF K))} (hd : (StochRSI k d p q).data it = .ok ds) :
    ∃ R H L : Nat → K, (∀ (i : Nat) r, rs[i]? = some r → r.value = .fin (R i)) ∧
      (∀ i, IsGreatest {v | ∃ j, i + 1 ≤ j + q ∧ j ≤ i ∧ R j = v} (H i) ∧
        IsLeast {v | ∃ j, i + 1 ≤ j + q ∧ j ≤ i ∧ R j = v} (L i)) ∧
      ∀ (i : Nat) r, ds[i]? = some r → r.k = .fin (expMean k (fun j => (R j - L j) / (H j - L j) * 100) i) ∧
        r.d = .fin (expMean d (expMean k fun j => (R j - L j) / (H j - L j) * 100) i) := by
  obtain ⟨x, hx, hc⟩ := hb.full
  obtain ⟨R, hR⟩ : ∃ R : Nat → K, rsiF (p : Int).toNat (Ind.cl x) = finF R := by
    have : ∀ j, ∃ v, rsiF (p : Int).toNat (Ind.cl x) j = .fin v := fun j => by
      rw [hc.cl, rsiF]
      split
      · exact ⟨0, by simp⟩
      · rw [rsiW_fin (by omega), rsiVal_fin (wilderAvg_nonneg (by omega) (fun j => le_max_right _ _) _)
          (wilderAvg_nonneg (by omega) (fun j => le_max_right _ _) _)]
        exact ⟨_, rfl⟩
    choose R hR using this
    exact ⟨R, funext hR⟩
  choose H L hH hL e using fun i => stochF_fin (p := q) hq R R R i
  have hs : stochRsiF p q x = finF fun i => (R i - L i) / (H i - L i) * 100 := by
    funext j
    rw [stochRsiF, hR, Int.toNat_natCast, e]
  refine ⟨R, H, L, fun i r hr => ?_, fun i => ⟨hH i, hL i⟩, fun i r hr => ?_⟩
  · obtain ⟨-, -, rfl⟩ := at_full (RSI.appends p).yields hx hrs hr
    exact congrFun hR i
  · obtain ⟨-, -, rfl⟩ := at_full (StochRSI.appends k d p q).yields hx hd hr
    constructor
    · show emaF k (stochRsiF p q x) i = _
      rw [hs, emaF_expMean]
    · show emaF d (emaF k (stochRsiF p q x)) i = _
      rw [hs, emaF_expMean, emaF_expMean]

/-- **C82**, EMAVegas: the five averages of the closes. -/
theorem C82_vegas {p s1 s2 l1 l2 : Nat} {d : List (Vegas.Data (XF K))} (hd : (Vegas p s1 s2 l1 l2).data it = .ok d)
    {i : Nat} {r : Vegas.Data (XF K)} (hr : d[i]? = some r) :
    [r.value, r.short1, r.short2, r.long1, r.long2] =
      [p, s1, s2, l1, l2].map fun q => .fin (expMean q (col Bar.c bs) i) := by
  obtain ⟨x, hx, hc⟩ := hb.full
  obtain ⟨-, -, rfl⟩ := at_full (Vegas.makes p s1 s2 l1 l2).yields hx hd hr
  show [emaF p (cl x) i, emaF s1 (cl x) i, emaF s2 (cl x) i, emaF l1 (cl x) i, emaF l2 (cl x) i] = _
  rw [hc.cl]
  simp only [emaF_expMean]
  rfl

/-- **C82**: on a market whose close never moves, every exponential average is the close and the difference
oscillators are 0. -/
theorem C82_still {c : K} (hcst : ∀ b ∈ bs, b.c = c) {p q s i : Nat} :
    (∀ (d : List (Rec (XF K))) (r : Rec (XF K)), (EMA p).data it = .ok d → d[i]? = some r → r.value = .fin c) ∧
    (∀ (d : List (Rec (XF K))) (r : Rec (XF K)), (DEMA p).data it = .ok d → d[i]? = some r → r.value = .fin c) ∧
    (∀ (d : List (Rec (XF K))) (r : Rec (XF K)), (APO p q).data it = .ok d → d[i]? = some r → r.value = .fin 0) ∧
    (∀ (d : List (MACD.Data (XF K))) (r : MACD.Data (XF K)), (MACD p s q).data it = .ok d → d[i]? = some r →
      r.dif = .fin 0 ∧ r.dea = .fin 0 ∧ r.macd = .fin 0) ∧
    (∀ (d : List (PPO.Data (XF K))) (r : PPO.Data (XF K)), (PPO p q s).data it = .ok d → d[i]? = some r →
      r.ppo = .fin 0 ∧ r.signal = .fin 0 ∧ r.histogram = .fin 0) := by
  have hcol : ∀ j < bs.length, col Bar.c bs j = c := fun j hj => by
    rw [col, List.getElem?_eq_getElem hj]
    exact hcst _ (List.getElem_mem hj)
  have hm : ∀ p j, j < bs.length → expMean p (col Bar.c bs) j = c := fun p j hj =>
    expMean_const fun k hk => hcol k (by omega)
  obtain ⟨x, hx, -⟩ := hb.full
  refine ⟨fun d r hd hr => ?_, fun d r hd hr => ?_, fun d r hd hr => ?_, fun d r hd hr => ?_, fun d r hd hr => ?_⟩
  · obtain ⟨hi, -, -⟩ := at_full (EMA.makes p).yields hx hd hr
    rw [C82_ema hb hd hr, hm p i hi]
  · obtain ⟨hi, -, -⟩ := at_full (DEMA.makes p).yields hx hd hr
    rw [C82_dema hb hd hr, hm p i hi, expMean_const (c := c) fun j hj => hm p j (by omega)]
    congr 1; ring
  · obtain ⟨hi, -, -⟩ := at_full (APO.makes p q).yields hx hd hr
    rw [C82_apo hb hd hr, hm p i hi, hm q i hi, sub_self]
  · obtain ⟨hi, -, -⟩ := at_full (MACD.makes p s q).yields hx hd hr
    obtain ⟨h1, h2, h3⟩ := C82_macd hb hd hr
    have e : ∀ j ≤ i, expMean p (col Bar.c bs) j - expMean q (col Bar.c bs) j = 0 := fun j hj => by
      rw [hm p j (by omega), hm q j (by omega), sub_self]
    rw [h1, h2, h3, expMean_const e]
    beta_reduce
    rw [e i (le_refl _)]
    simp
  · obtain ⟨hi, -, -⟩ := at_full (PPO.appends p q s).yields hx hd hr
    obtain ⟨h1, h2, h3⟩ := C82_ppo hb hd hr
    have e : ∀ j ≤ i, (expMean p (col Bar.c bs) j - expMean q (col Bar.c bs) j) / expMean q (col Bar.c bs) j * 100 = 0 :=
      fun j hj => by rw [hm p j (by omega), hm q j (by omega), sub_self, zero_div, zero_mul]
    rw [h1, h2, h3, expMean_const e]
    beta_reduce
    rw [e i (le_refl _)]
    simp

end

example : Holds (barItem threeBars) threeBars ∧
    (EMA 3).data (barItem threeBars) = .ok [⟨0, .fin 2⟩, ⟨0, .fin 3⟩, ⟨0, .fin 2⟩] ∧
    (APO 1 3).data (barItem threeBars) = .ok [⟨0, .fin 0⟩, ⟨0, .fin 1⟩, ⟨0, .fin (-1)⟩] ∧
    (MACD 1 3 3).data (barItem threeBars) = .ok [⟨0, .fin 0, .fin 0, .fin 0⟩, ⟨0, .fin 1, .fin (1 / 2), .fin 1⟩,
      ⟨0, .fin (-1), .fin (-1 / 4), .fin (-3 / 2)⟩] ∧
    expMean 3 (col Bar.c threeBars) 2 = 2 := by
  refine ⟨holds_barItem _, ?_, ?_, ?_, ?_⟩ <;> decide +kernel

example : (DEMA 3).data (barItem threeBars) = .ok [⟨0, .fin 2⟩, ⟨0, .fin (7 / 2)⟩, ⟨0, .fin (7 / 4)⟩] ∧
    (VolOsc 1 3).data (barItem threeBars) = .ok [⟨0, .fin 0⟩, ⟨0, .fin (100 / 3)⟩, ⟨0, .fin (100 / 3)⟩] ∧
    (PPO 1 3 3).data (barItem threeBars) = .ok [⟨0, .fin 0, .fin 0, .fin 0⟩,
      ⟨0, .fin (100 / 3), .fin (50 / 3), .fin (50 / 3)⟩, ⟨0, .fin (-50), .fin (-50 / 3), .fin (-100 / 3)⟩] ∧
    (XO 1 3).data (barItem threeBars) = .ok [⟨0, .fin 2, .fin 2⟩, ⟨0, .fin 4, .fin 3⟩, ⟨0, .fin 1, .fin 2⟩] := by
  refine ⟨?_, ?_, ?_, ?_⟩ <;> decide +kernel

example : (Awesome.data (barItem threeBars)).toOption.map (·.length) = some 3 ∧
    ((Chaikin 1 3).data (barItem threeBars)).toOption.map (·.map (·.ad)) =
      some [.fin 0, .fin (20 / 3), .fin (-70 / 3)] ∧
    ((Vegas 1 3 3 3 3).data (barItem threeBars)).toOption.map (·.map (·.long2)) =
      some [.fin 2, .fin 3, .fin 2] := by
  refine ⟨?_, ?_, ?_⟩ <;> decide +kernel

example : (RSI 2).data (barItem (flat [1, 2, 1, 3])) = .ok [⟨0, .fin 0⟩, ⟨0, .fin 0⟩, ⟨0, .fin 50⟩, ⟨0, .fin (250 / 3)⟩] ∧
    (StochRSI 1 3 2 2).data (barItem (flat [1, 2, 1, 3])) =
      .ok [⟨0, .fin 0, .fin 0⟩, ⟨0, .fin 0, .fin 0⟩, ⟨0, .fin 100, .fin 50⟩, ⟨0, .fin 100, .fin 75⟩] := by
  refine ⟨?_, ?_⟩ <;> decide +kernel

end Verif.Props
