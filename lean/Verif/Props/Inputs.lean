import Verif.Props.Indicators
import Verif.Props.Bars

/-!
# What an indicator reads (C123)

Every indicator depends on the columns listed here and on nothing else: not on the other columns, not on the
timestamps (which are only copied into the records), not on the name of the market or the interval.
-/

set_option linter.unusedSectionVars false
set_option linter.unusedVariables false
set_option linter.unusedTactic false
set_option linter.unreachableTactic false
set_option linter.unnecessarySeqFocus false

namespace Verif.Props
open Verif Verif.Klines Verif.Ta Verif.Ind GoFloat

/-- The columns of a candle. -/
inductive Col
  | open_ | high | low | close | volume | bull
  deriving DecidableEq

variable {F : Type}

/-- Two candles agree in a column. -/
def Col.Agree : Col → Candle F → Candle F → Prop
  | .open_, a, b => a.open_ = b.open_
  | .high, a, b => a.high = b.high
  | .low, a, b => a.low = b.low
  | .close, a, b => a.close = b.close
  | .volume, a, b => a.volume = b.volume
  | .bull, a, b => a.isBull = b.isBull

/-- Two series have equally many candles, and these agree in the given columns. -/
def SameCols (cols : List Col) (it it' : Item F) : Prop :=
  List.Forall₂ (fun a b => ∀ c ∈ cols, c.Agree a b) it.candles it'.candles

variable [GoMath F]

/-- The columns each indicator reads. -/
inductive ReadsCols : Indicator F → List Col → Prop
  | sma (p : Int) : ReadsCols (SMA p) [.close]
  | ma (p : Int) : ReadsCols (MAi p) [.close]
  | ema (p : Int) : ReadsCols (EMA p) [.close]
  | dema (p : Int) : ReadsCols (DEMA p) [.close]
  | apo (a b : Int) : ReadsCols (APO a b).toIndicator [.close]
  | macd (a b c : Int) : ReadsCols (MACD a b c).toIndicator [.close]
  | ppo (a b c : Int) : ReadsCols (PPO a b c).toIndicator [.close]
  | rsi (p : Int) : ReadsCols (RSI p).toIndicator [.close]
  | stochRsi (a b c d : Int) : ReadsCols (StochRSI a b c d).toIndicator [.close]
  | aiCoinCCI (p : Int) : ReadsCols (AiCCI p).toIndicator [.close]
  | vegas (p a b c d : Int) : ReadsCols (Vegas p a b c d).toIndicator [.close]
  | traderXO (a b : Int) : ReadsCols (XO a b).toIndicator [.close]
  | boll (p k : Int) : ReadsCols (Boll p k).toIndicator [.close]
  | donchian (p : Int) : ReadsCols (Donchian p).toIndicator [.close]
  | ulcer (p : Int) : ReadsCols (Ulcer p) [.close]
  | awesome : ReadsCols Awesome.toIndicator [.high, .low]
  | cci (p q : Int) : ReadsCols (CCIi p q).toIndicator [.high, .low, .close]
  | atr (p : Int) : ReadsCols (ATR p) [.high, .low, .close]
  | adx (p l : Int) : ReadsCols (ADX p l) [.high, .low, .close]
  | superTrend (p m : Int) (c : Bool) : ReadsCols (ST p m c).toIndicator [.high, .low, .close]
  | pivotPointSuperTrend (p a : Int) (f : F) : ReadsCols (PPST p a f).toIndicator [.high, .low, .close]
  | utBot (p a : Int) : ReadsCols (UT p a).toIndicator [.high, .low, .close]
  | vortex (p : Int) : ReadsCols (Vortex p) [.high, .low, .close]
  | kdj (p : Int) : ReadsCols (KDJ p).toIndicator [.high, .low, .close]
  | reversal : ReadsCols Rev [.high, .low, .close]
  | stochasticHeat (a b c d : Int) (k : MAKind) : ReadsCols (Heat a b c d k).toIndicator [.high, .low, .close]
  | stoch (p : Int) : ReadsCols (Stoch p).toIndicator [.high, .low, .close]
  | williams (p : Int) : ReadsCols (Williams p).toIndicator [.high, .low, .close]
  | projection (a b : Int) : ReadsCols (Projection a b).toIndicator [.high, .low, .close]
  | ichimoku (a b c : Int) : ReadsCols (Ichimoku a b c).toIndicator [.high, .low, .close]
  | camarilla (a : Int) : ReadsCols (Camarilla a) [.high, .low, .close]
  | keltner (p : Int) : ReadsCols (Keltner p).toIndicator [.high, .low, .close]
  | breakout (s : F) (n : Int) : ReadsCols (BP s n) [.open_, .high, .low, .close]
  | linRegCandles (a b : Int) (s : Bool) : ReadsCols (LRC a b s) [.open_, .high, .low, .close]
  | volumeOscillator (a b : Int) : ReadsCols (VolOsc a b) [.volume]
  | forceIndex (p : Int) : ReadsCols (Force p) [.close, .volume]
  | nvi : ReadsCols NVI [.close, .volume]
  | obv : ReadsCols OBV [.close, .volume]
  | vpt (p : Int) : ReadsCols (VPT p) [.close, .volume]
  | vwma (p : Int) : ReadsCols (VWMA p) [.close, .volume]
  | easeOfMovement (p : Int) : ReadsCols (EMV p) [.high, .low, .volume]
  | ad : ReadsCols AD [.high, .low, .close, .volume]
  | cmf (p : Int) : ReadsCols (CMF p) [.high, .low, .close, .volume]
  | chaikin (a b : Int) : ReadsCols (Chaikin a b).toIndicator [.high, .low, .close, .volume]
  | mfi (p : Int) : ReadsCols (MFI p).toIndicator [.high, .low, .close, .volume]

/-! ## The closed forms -/

section forms
variable {x y : Nat → Candle F}

/-- The candles agree in the columns. -/
def AgreeOn (cols : List Col) (x y : Nat → Candle F) : Prop := ∀ i, ∀ c ∈ cols, c.Agree (x i) (y i)

theorem AgreeOn.op {cols : List Col} (h : AgreeOn cols x y) (hc : .open_ ∈ cols) : Ind.op x = Ind.op y := funext fun i => h i _ hc
theorem AgreeOn.hi {cols : List Col} (h : AgreeOn cols x y) (hc : .high ∈ cols) : Ind.hi x = Ind.hi y := funext fun i => h i _ hc
theorem AgreeOn.lo {cols : List Col} (h : AgreeOn cols x y) (hc : .low ∈ cols) : Ind.lo x = Ind.lo y := funext fun i => h i _ hc
theorem AgreeOn.cl {cols : List Col} (h : AgreeOn cols x y) (hc : .close ∈ cols) : Ind.cl x = Ind.cl y := funext fun i => h i _ hc
theorem AgreeOn.vo {cols : List Col} (h : AgreeOn cols x y) (hc : .volume ∈ cols) : Ind.vo x = Ind.vo y := funext fun i => h i _ hc
theorem AgreeOn.bu {cols : List Col} (h : AgreeOn cols x y) (hc : .bull ∈ cols) : Ind.bu x = Ind.bu y := funext fun i => h i _ hc

theorem difF_congr (a b : Int) (hc : cl x = cl y) : difF a b x = difF a b y := by
  funext i; simp only [difF, hc]

theorem ppoF_congr (a b : Int) (hc : cl x = cl y) : ppoF a b x = ppoF a b y := by
  funext i; simp only [ppoF, hc]

theorem ddF_congr (p : Int) (hc : cl x = cl y) : ddF p x = ddF p y := by
  funext i; simp only [ddF, hc]

theorem stochRsiF_congr (a b : Int) (hc : cl x = cl y) : stochRsiF a b x = stochRsiF a b y := by
  simp only [stochRsiF, hc]

theorem medF_congr (hh : hi x = hi y) (hl : lo x = lo y) : medF x = medF y := by
  funext i; simp only [medF, hh, hl]

theorem midF_congr (hh : hi x = hi y) (hl : lo x = lo y) : midF x = midF y := by
  funext i; simp only [midF, hh, hl]

theorem typF_congr (hh : hi x = hi y) (hl : lo x = lo y) (hc : cl x = cl y) : typF x = typF y := by
  funext i; simp only [typF, hh, hl, hc]

theorem trI_congr (hh : hi x = hi y) (hl : lo x = lo y) (hc : cl x = cl y) : trI x = trI y := by
  funext i; simp only [trI, hh, hl, hc]

theorem adxTR_congr (hh : hi x = hi y) (hl : lo x = lo y) (hc : cl x = cl y) : adxTR x = adxTR y := by
  funext i; cases i <;> simp only [adxTR, hh, hl, hc]

theorem adxDM_congr (hh : hi x = hi y) (hl : lo x = lo y) : adxDM x = adxDM y := by
  funext i; cases i <;> simp only [adxDM, hh, hl]

theorem adxPlus_congr (p l : Int) (hh : hi x = hi y) (hl : lo x = lo y) (hc : cl x = cl y) : adxPlus p l x = adxPlus p l y := by
  funext i; simp only [adxPlus, adxTR_congr hh hl hc, adxDM_congr hh hl]

theorem adxMinus_congr (p l : Int) (hh : hi x = hi y) (hl : lo x = lo y) (hc : cl x = cl y) : adxMinus p l x = adxMinus p l y := by
  funext i; simp only [adxMinus, adxTR_congr hh hl hc, adxDM_congr hh hl]

theorem adxDX_congr (p l : Int) (hh : hi x = hi y) (hl : lo x = lo y) (hc : cl x = cl y) : adxDX p l x = adxDX p l y := by
  funext i; simp only [adxDX, adxPlus_congr p l hh hl hc, adxMinus_congr p l hh hl hc]

theorem stAtr_congr (p : Int) (b : Bool) (hh : hi x = hi y) (hl : lo x = lo y) (hc : cl x = cl y) : stAtr p b x = stAtr p b y := by
  simp only [stAtr, hh, hl, hc]

theorem stF_congr (p m : Int) (b : Bool) (hh : hi x = hi y) (hl : lo x = lo y) (hc : cl x = cl y) :
    stF p m b x = stF p m b y := by
  funext i
  induction i with
  | zero => rfl
  | succ k ih => simp only [stF, ih, hh, hl, hc, stAtr_congr p b hh hl hc]

theorem ppstF_congr (p a : Int) (f : F) (hh : hi x = hi y) (hl : lo x = lo y) (hc : cl x = cl y) :
    ppstF p a f x = ppstF p a f y := by
  funext i
  induction i with
  | zero => rfl
  | succ k ih => simp only [ppstF, ih, hh, hl, hc]

theorem utF_congr (p a : Int) (hh : hi x = hi y) (hl : lo x = lo y) (hc : cl x = cl y) : utF p a x = utF p a y := by
  funext i
  induction i with
  | zero => rfl
  | succ k ih => simp only [utF, ih, hh, hl, hc]

theorem vmPlus_congr (hh : hi x = hi y) (hl : lo x = lo y) : vmPlus x = vmPlus y := by
  funext i; simp only [vmPlus, hh, hl]

theorem vmMinus_congr (hh : hi x = hi y) (hl : lo x = lo y) : vmMinus x = vmMinus y := by
  funext i; simp only [vmMinus, hh, hl]

theorem vmTR_congr (hh : hi x = hi y) (hl : lo x = lo y) (hc : cl x = cl y) : vmTR x = vmTR y := by
  funext i; simp only [vmTR, hh, hl, hc]

theorem rsvF_congr (p : Int) (hh : hi x = hi y) (hl : lo x = lo y) (hc : cl x = cl y) : rsvF p x = rsvF p y := by
  funext i; simp only [rsvF, hh, hl, hc]

theorem kF_congr (p : Int) (hh : hi x = hi y) (hl : lo x = lo y) (hc : cl x = cl y) : kF p x = kF p y := by
  funext i
  induction i with
  | zero => rfl
  | succ k ih => simp only [kF, ih, rsvF_congr p hh hl hc]

theorem dF_congr (p : Int) (hh : hi x = hi y) (hl : lo x = lo y) (hc : cl x = cl y) : dF p x = dF p y := by
  funext i
  induction i with
  | zero => rfl
  | succ k ih => simp only [dF, ih, kF_congr p hh hl hc]

theorem revF_congr (hc : cl x = cl y) : revF x = revF y := by
  funext i
  induction i with
  | zero => rfl
  | succ k ih => simp only [revF, ih, hc]

theorem heatF_congr (kind : MAKind) (a b : Int) (hh : hi x = hi y) (hl : lo x = lo y) (hc : cl x = cl y) :
    heatF kind a b x = heatF kind a b y := by
  funext i; simp only [heatF, hh, hl, hc]

theorem heatSum_congr (kind : MAKind) (a b : Int) (hh : hi x = hi y) (hl : lo x = lo y) (hc : cl x = cl y) :
    heatSum kind a b x = heatSum kind a b y := by
  funext i k
  induction k with
  | zero => simp only [heatSum, heatF_congr kind a b hh hl hc]
  | succ k ih => simp only [heatSum, ih, heatF_congr kind a b hh hl hc]

theorem heatFast_congr (a b c : Int) (kind : MAKind) (hh : hi x = hi y) (hl : lo x = lo y) (hc : cl x = cl y) :
    heatFast a b c kind x = heatFast a b c kind y := by
  funext i; simp only [heatFast, heatSum_congr kind a b hh hl hc]

theorem heatSlow_congr (a b c d : Int) (kind : MAKind) (hh : hi x = hi y) (hl : lo x = lo y) (hc : cl x = cl y) :
    heatSlow a b c d kind x = heatSlow a b c d kind y := by
  funext i; simp only [heatSlow, heatFast_congr a b d kind hh hl hc]

theorem stochK_congr (p : Int) (hh : hi x = hi y) (hl : lo x = lo y) (hc : cl x = cl y) : stochK p x = stochK p y := by
  funext i; simp only [stochK, hh, hl, hc]

theorem williamsF_congr (p : Int) (hh : hi x = hi y) (hl : lo x = lo y) (hc : cl x = cl y) : williamsF p x = williamsF p y := by
  funext i; simp only [williamsF, hh, hl, hc]

theorem projHi_congr (p : Nat) (hh : hi x = hi y) : projHi p x = projHi p y := by
  funext i; simp only [projHi, hh]

theorem projLo_congr (p : Nat) (hl : lo x = lo y) : projLo p x = projLo p y := by
  funext i; simp only [projLo, hl]

theorem projF_congr (p : Nat) (hh : hi x = hi y) (hl : lo x = lo y) (hc : cl x = cl y) : projF p x = projF p y := by
  funext i; simp only [projF, projHi_congr p hh, projLo_congr p hl, hc]

theorem midHL_congr (p q : Nat) (hh : hi x = hi y) (hl : lo x = lo y) : midHL p q x = midHL p q y := by
  funext i; simp only [midHL, hh, hl]

theorem nzVol_congr (hv : vo x = vo y) : nzVol x = nzVol y := by
  funext i; simp only [nzVol, hv]

theorem adVal_congr (hh : hi x = hi y) (hl : lo x = lo y) (hc : cl x = cl y) (hv : vo x = vo y) : adVal x = adVal y := by
  funext i; simp only [adVal, hh, hl, hc, hv]

theorem adF_congr (hh : hi x = hi y) (hl : lo x = lo y) (hc : cl x = cl y) (hv : vo x = vo y) : adF x = adF y := by
  funext i
  induction i with
  | zero => simp only [adF, adVal_congr hh hl hc hv]
  | succ k ih => simp only [adF, ih, adVal_congr hh hl hc hv]

theorem mfv_congr (hh : hi x = hi y) (hl : lo x = lo y) (hc : cl x = cl y) (hv : vo x = vo y) : mfv x = mfv y := by
  funext i; simp only [mfv, hh, hl, hc, hv]

theorem emv1_congr (hh : hi x = hi y) (hl : lo x = lo y) (hv : vo x = vo y) : emv1 x = emv1 y := by
  funext i; simp only [emv1, midF_congr hh hl, hh, hl, hv]

theorem nviF_congr (hc : cl x = cl y) (hv : vo x = vo y) : nviF x = nviF y := by
  funext i
  induction i with
  | zero => rfl
  | succ k ih => simp only [nviF, ih, hc, hv]

theorem obvF_congr (hc : cl x = cl y) (hv : vo x = vo y) : obvF x = obvF y := by
  funext i
  induction i with
  | zero => rfl
  | succ k ih => simp only [obvF, ih, hc, hv]

theorem vpt1_congr (p : Nat) (hc : cl x = cl y) (hv : vo x = vo y) : vpt1 p x = vpt1 p y := by
  funext i; simp only [vpt1, hc, hv]

theorem rawF_congr (hh : hi x = hi y) (hl : lo x = lo y) (hc : cl x = cl y) (hv : vo x = vo y) : rawF x = rawF y := by
  funext i; simp only [rawF, hh, hl, hc, hv]

theorem flowF_congr (hh : hi x = hi y) (hl : lo x = lo y) (hc : cl x = cl y) (hv : vo x = vo y) : flowF x = flowF y := by
  funext i; simp only [flowF, rawF_congr hh hl hc hv]

theorem mfiF_congr (p : Nat) (hh : hi x = hi y) (hl : lo x = lo y) (hc : cl x = cl y) (hv : vo x = vo y) :
    mfiF p x = mfiF p y := by
  funext i; simp only [mfiF, flowF_congr hh hl hc hv]

theorem BP.step_bar (s : F) (n : Int) (st : BP.St F) {p q c d : BP.Bar F} (hp : { p with time := 0 } = { q with time := 0 })
    (hc : { c with time := 0 } = { d with time := 0 }) (ht : c.time = d.time) : BP.step s n st p c = BP.step s n st q d := by
  obtain ⟨t, o, h, l, e⟩ := p
  obtain ⟨t', o', h', l', e'⟩ := q
  have hcd : c = d := by
    cases c; cases d
    simp only [BP.Bar.mk.injEq, true_and] at hc ht ⊢
    exact ⟨ht, hc⟩
  simp only [BP.Bar.mk.injEq, true_and] at hp
  obtain ⟨rfl, rfl, rfl, rfl⟩ := hp
  rw [hcd]
  rfl

theorem BP.step_state (s : F) (n : Int) (st : BP.St F) {p q c d : BP.Bar F} (hp : { p with time := 0 } = { q with time := 0 })
    (hc : { c with time := 0 } = { d with time := 0 }) : (BP.step s n st p c).1 = (BP.step s n st q d).1 := by
  have h := congrArg Prod.fst (BP.step_bar s n st hp (c := { c with time := 0 }) (d := { d with time := 0 }) hc rfl)
  exact h

theorem bar_congr (ho : Ind.op x = Ind.op y) (hh : hi x = hi y) (hl : lo x = lo y) (hc : cl x = cl y) (k : Nat) :
    { BP.bar x k with time := 0 } = { BP.bar y k with time := 0 } := by
  simp only [BP.bar, ho, hh, hl, hc]

theorem bpF_congr (s : F) (n : Int) (ho : Ind.op x = Ind.op y) (hh : hi x = hi y) (hl : lo x = lo y) (hc : cl x = cl y) :
    bpF s n x = bpF s n y := by
  funext i
  induction i with
  | zero => rfl
  | succ k ih =>
    simp only [bpF, ih]
    exact BP.step_state _ _ _ (bar_congr ho hh hl hc k) (bar_congr ho hh hl hc (k + 1))

end forms

/-- A record depends on its timestamp and on the columns. -/
def DependsOn {D : Type} (cols : List Col) (G : (Nat → Candle F) → Nat → D) : Prop :=
  ∀ x y, AgreeOn cols x y → ∀ i, ti x i = ti y i → G x i = G y i

theorem reads_close {D : Type} {G : (Nat → Candle F) → Nat → D}
    (h : ∀ x y, cl x = cl y → ∀ i, ti x i = ti y i → G x i = G y i) : DependsOn [.close] G :=
  fun x y hxy i ht => h x y (hxy.cl (by simp)) i ht

theorem reads_hlc {D : Type} {G : (Nat → Candle F) → Nat → D}
    (h : ∀ x y, hi x = hi y → lo x = lo y → cl x = cl y → ∀ i, ti x i = ti y i → G x i = G y i) :
    DependsOn [.high, .low, .close] G :=
  fun x y hxy i ht => h x y (hxy.hi (by simp)) (hxy.lo (by simp)) (hxy.cl (by simp)) i ht

theorem reads_ohlc {D : Type} {G : (Nat → Candle F) → Nat → D}
    (h : ∀ x y, Ind.op x = Ind.op y → hi x = hi y → lo x = lo y → cl x = cl y → ∀ i, ti x i = ti y i → G x i = G y i) :
    DependsOn [.open_, .high, .low, .close] G :=
  fun x y hxy i ht => h x y (hxy.op (by simp)) (hxy.hi (by simp)) (hxy.lo (by simp)) (hxy.cl (by simp)) i ht

theorem reads_cv {D : Type} {G : (Nat → Candle F) → Nat → D}
    (h : ∀ x y, cl x = cl y → vo x = vo y → ∀ i, ti x i = ti y i → G x i = G y i) : DependsOn [.close, .volume] G :=
  fun x y hxy i ht => h x y (hxy.cl (by simp)) (hxy.vo (by simp)) i ht

theorem reads_hlcv {D : Type} {G : (Nat → Candle F) → Nat → D}
    (h : ∀ x y, hi x = hi y → lo x = lo y → cl x = cl y → vo x = vo y → ∀ i, ti x i = ti y i → G x i = G y i) :
    DependsOn [.high, .low, .close, .volume] G :=
  fun x y hxy i ht => h x y (hxy.hi (by simp)) (hxy.lo (by simp)) (hxy.cl (by simp)) (hxy.vo (by simp)) i ht

theorem ReadsCols.form {I : Indicator F} {cols : List Col} (h : ReadsCols I cols) :
    ∃ ok G, Yields I ok G ∧ DependsOn cols G := by
  cases h with
  | sma p => exact ⟨_, _, (SMA.makes p).yields, reads_close fun x y hc i ht => by simp only [SMA.out, hc, ht]⟩
  | ma p => exact ⟨_, _, (MAi.appends p).yields, reads_close fun x y hc i ht => by simp only [SMA.out, hc, ht]⟩
  | ema p => exact ⟨_, _, (EMA.makes p).yields, reads_close fun x y hc i ht => by simp only [EMA.out, hc, ht]⟩
  | dema p => exact ⟨_, _, (DEMA.makes p).yields, reads_close fun x y hc i ht => by simp only [DEMA.out, hc, ht]⟩
  | apo a b => exact ⟨_, _, (APO.makes a b).yields, reads_close fun x y hc i ht => by simp only [APO.out, hc, ht]⟩
  | macd a b c => exact ⟨_, _, (MACD.makes a b c).yields, reads_close fun x y hc i ht => by
      simp only [MACD.out, difF_congr a c hc, ht]⟩
  | ppo a b c => exact ⟨_, _, (PPO.appends a b c).yields, reads_close fun x y hc i ht => by
      simp only [PPO.out, ppoF_congr a b hc, ht]⟩
  | rsi p => exact ⟨_, _, (RSI.appends p).yields, reads_close fun x y hc i ht => by simp only [RSI.out, hc, ht]⟩
  | stochRsi a b c d => exact ⟨_, _, (StochRSI.appends a b c d).yields, reads_close fun x y hc i ht => by
      simp only [StochRSI.out, stochRsiF_congr c d hc, ht]⟩
  | aiCoinCCI p => exact ⟨_, _, (AiCCI.appends p).yields, reads_close fun x y hc i ht => by simp only [AiCCI.out, hc, ht]⟩
  | vegas p a b c d => exact ⟨_, _, (Vegas.makes p a b c d).yields, reads_close fun x y hc i ht => by
      simp only [Vegas.out, hc, ht]⟩
  | traderXO a b => exact ⟨_, _, (XO.makes a b).yields, reads_close fun x y hc i ht => by simp only [XO.out, hc, ht]⟩
  | boll p k => exact ⟨_, _, (Boll.makes p k).yields, reads_close fun x y hc i ht => by simp only [Boll.out, hc, ht]⟩
  | donchian p => exact ⟨_, _, (Donchian.appends p).yields, reads_close fun x y hc i ht => by
      simp only [Donchian.out, hc, ht]⟩
  | ulcer p => exact ⟨_, _, (Ulcer.appends p).yields, reads_close fun x y hc i ht => by
      simp only [Ulcer.out, ddF_congr p hc, ht]⟩
  | awesome => exact ⟨_, _, Awesome.appends.yields, fun x y h i ht => by
      simp only [Awesome.out, medF_congr (h.hi (by simp)) (h.lo (by simp)), ht]⟩
  | cci p q => exact ⟨_, _, (CCIi.appends p q).yields, reads_hlc fun x y hh hl hc i ht => by
      simp only [CCIi.out, typF_congr hh hl hc, ht]⟩
  | atr p => exact ⟨_, _, (ATR.makes p).yields, reads_hlc fun x y hh hl hc i ht => by
      simp only [ATR.out, trI_congr hh hl hc, ht]⟩
  | adx p l => exact ⟨_, _, (ADX.makes p l).yields, reads_hlc fun x y hh hl hc i ht => by
      simp only [ADX.out, adxPlus_congr p l hh hl hc, adxMinus_congr p l hh hl hc, adxDX_congr p l hh hl hc, ht]⟩
  | superTrend p m c => exact ⟨_, _, (ST.makes p m c).yields, reads_hlc fun x y hh hl hc i ht => by
      simp only [ST.out, stF_congr p m c hh hl hc, ht]⟩
  | pivotPointSuperTrend p a f => exact ⟨_, _, (PPST.makes p a f).yields, reads_hlc fun x y hh hl hc i ht => by
      cases i with
      | zero => rfl
      | succ k => simp only [PPST.out, ppstF_congr p a f hh hl hc, ht]⟩
  | utBot p a => exact ⟨_, _, (UT.makes p a).yields, reads_hlc fun x y hh hl hc i ht => by
      cases i with
      | zero => rfl
      | succ k => simp only [UT.out, utF_congr p a hh hl hc, hc, ht]⟩
  | vortex p => exact ⟨_, _, (Vortex.appends p).yields, reads_hlc fun x y hh hl hc i ht => by
      simp only [Vortex.out, viPlus, viMinus, vmPlus_congr hh hl, vmMinus_congr hh hl, vmTR_congr hh hl hc, ht]⟩
  | kdj p => exact ⟨_, _, (KDJ.makes p).yields, reads_hlc fun x y hh hl hc i ht => by
      simp only [KDJ.out, rsvF_congr p hh hl hc, kF_congr p hh hl hc, dF_congr p hh hl hc, ht]⟩
  | reversal => exact ⟨_, _, Rev.makes.yields, reads_hlc fun x y hh hl hc i ht => by
      simp only [Rev.out, revF_congr hc, hh, hl, ht]⟩
  | stochasticHeat a b c d k => exact ⟨_, _, (Heat.appends a b c d k).yields, reads_hlc fun x y hh hl hc i ht => by
      simp only [Heat.out, heatFast_congr a b d k hh hl hc, heatSlow_congr a b c d k hh hl hc, ht]⟩
  | stoch p => exact ⟨_, _, (Stoch.appends p).yields, reads_hlc fun x y hh hl hc i ht => by
      simp only [Stoch.out, stochK_congr p hh hl hc, ht]⟩
  | williams p => exact ⟨_, _, (Williams.appends p).yields, reads_hlc fun x y hh hl hc i ht => by
      simp only [Williams.out, williamsF_congr p hh hl hc, ht]⟩
  | projection a b => exact ⟨_, _, (Projection.appends a b).yields, reads_hlc fun x y hh hl hc i ht => by
      simp only [Projection.out, projF_congr _ hh hl hc, ht]⟩
  | ichimoku a b c => exact ⟨_, _, (Ichimoku.appends a b c).yields, reads_hlc fun x y hh hl hc i ht => by
      simp only [Ichimoku.out, midHL_congr _ _ hh hl, hc, ht]⟩
  | camarilla a => exact ⟨_, _, (Camarilla.makes a).yields, reads_hlc fun x y hh hl hc i ht => by
      simp only [Camarilla.out, hh, hl, hc, ht]⟩
  | keltner p => exact ⟨_, _, (Keltner.appends p).yields, reads_hlc fun x y hh hl hc i ht => by
      simp only [Keltner.out, trI_congr hh hl hc, hc, ht]⟩
  | breakout s n => exact ⟨_, _, (BP.makes s n).yields, reads_ohlc fun x y ho hh hl hc i ht => by
      cases i with
      | zero => rfl
      | succ k =>
        simp only [BP.out, bpF_congr s n ho hh hl hc]
        rw [BP.step_bar s (BP.clamp n) _ (bar_congr ho hh hl hc k) (bar_congr ho hh hl hc (k + 1)) ht]⟩
  | linRegCandles a b s => exact ⟨_, _, (LRC.makes a b s).yields, reads_ohlc fun x y ho hh hl hc i ht => by
      simp only [LRC.out, ho, hh, hl, hc, ht]⟩
  | volumeOscillator a b => exact ⟨_, _, (VolOsc.makes a b).yields, fun x y h i ht => by
      simp only [VolOsc.out, nzVol_congr (h.vo (by simp)), ht]⟩
  | forceIndex p => exact ⟨_, _, (Force.appends p).yields, reads_cv fun x y hc hv i ht => by
      simp only [Force.out, hc, hv, ht]⟩
  | nvi => exact ⟨_, _, NVI.appends.yields, reads_cv fun x y hc hv i ht => by simp only [NVI.out, nviF_congr hc hv, ht]⟩
  | obv => exact ⟨_, _, OBV.grows.yields, reads_cv fun x y hc hv i ht => by simp only [OBV.out, obvF_congr hc hv, ht]⟩
  | vpt p => exact ⟨_, _, (VPT.appends p).yields, reads_cv fun x y hc hv i ht => by
      simp only [VPT.out, vpt1_congr _ hc hv, ht]⟩
  | vwma p => exact ⟨_, _, (VWMA.appends p).yields, reads_cv fun x y hc hv i ht => by simp only [VWMA.out, hc, hv, ht]⟩
  | easeOfMovement p => exact ⟨_, _, (EMV.appends p).yields, fun x y h i ht => by
      simp only [EMV.out, emv1_congr (h.hi (by simp)) (h.lo (by simp)) (h.vo (by simp)), ht]⟩
  | ad => exact ⟨_, _, AD.appends.yields, reads_hlcv fun x y hh hl hc hv i ht => by
      simp only [AD.out, adF_congr hh hl hc hv, ht]⟩
  | cmf p => exact ⟨_, _, (CMF.appends p).yields, reads_hlcv fun x y hh hl hc hv i ht => by
      simp only [CMF.out, mfv_congr hh hl hc hv, hv, ht]⟩
  | chaikin a b => exact ⟨_, _, (Chaikin.appends a b).yields, reads_hlcv fun x y hh hl hc hv i ht => by
      simp only [Chaikin.out, adF_congr hh hl hc hv, ht]⟩
  | mfi p => exact ⟨_, _, (MFI.appends p).yields, reads_hlcv fun x y hh hl hc hv i ht => by
      simp only [MFI.out, mfiF_congr _ hh hl hc hv, ht]⟩

theorem SameCols.tabs {cols : List Col} {it it' : Item F} (h : SameCols cols it it') : ∃ n x y,
    it.candles = tab n x ∧ it'.candles = tab n y ∧ AgreeOn cols x y := by
  unfold SameCols at h
  generalize it.candles = xs at h ⊢
  generalize it'.candles = ys at h ⊢
  refine ⟨xs.length, fun i => xs.getD i (Candle.zero 0), fun i => ys.getD i (Candle.zero 0), ?_, ?_, fun i c hc => ?_⟩
  · exact eq_tab_of_forall (by rfl) fun i hi => by simp [hi]
  · refine eq_tab_of_forall h.length_eq.symm fun i hi => ?_
    have : i < ys.length := h.length_eq ▸ hi
    simp [this]
  · by_cases hi : i < xs.length
    · have hi' : i < ys.length := h.length_eq ▸ hi
      have := h.get hi hi' c hc
      simpa [hi, hi'] using this
    · have hi' : ¬ i < ys.length := h.length_eq ▸ hi
      simp only [List.getD_eq_getElem?_getD, List.getElem?_eq_none (Nat.le_of_not_lt hi),
        List.getElem?_eq_none (Nat.le_of_not_lt hi'), Option.getD_none]
      cases c <;> rfl

/-- C123: an indicator reads its columns and nothing else. On two series that agree in these columns it panics on
both or on neither, and the records of two candles with the same timestamp are equal. Prices and volumes of other
columns, trade counts, timestamps of other candles, names and the interval have no influence. -/
theorem C123_columns {I : Indicator F} {cols : List Col} (h : ReadsCols I cols) {it it' : Item F}
    (hs : SameCols cols it it') :
    ((∃ d, I.data it = .ok d) ↔ ∃ d, I.data it' = .ok d) ∧
    ∀ d d', I.data it = .ok d → I.data it' = .ok d' → ∀ i : Nat,
      (it.candles[i]?).map Candle.timeUnix = (it'.candles[i]?).map Candle.timeUnix → d[i]? = d'[i]? := by
  obtain ⟨ok, G, hy, hG⟩ := h.form
  obtain ⟨n, x, y, hx, hx', hxy⟩ := hs.tabs
  constructor
  · by_cases hok : ok n
    · exact ⟨fun _ => ⟨_, (hy it' n y hx').1 hok⟩, fun _ => ⟨_, (hy it n x hx).1 hok⟩⟩
    · obtain ⟨p, hp⟩ := (hy it n x hx).2 hok
      obtain ⟨q, hq⟩ := (hy it' n y hx').2 hok
      exact ⟨fun ⟨d, hd⟩ => (by rw [hp] at hd; cases hd), fun ⟨d, hd⟩ => (by rw [hq] at hd; cases hd)⟩
  · intro d d' hd hd' i ht
    rw [(yields_inv hy hx hd).2, (yields_inv hy hx' hd').2]
    rw [hx, hx'] at ht
    by_cases hi : i < n
    · rw [tab_getElem?_lt hi, tab_getElem?_lt hi] at ht ⊢
      rw [hG x y hxy i (Option.some.inj ht)]
    · rw [List.getElem?_eq_none (by rw [tab_length]; omega), List.getElem?_eq_none (by rw [tab_length]; omega)]

/-! ## Signals -/

/-- The columns each strategy reads. -/
inductive SidesRead : Strat F → List Col → Prop
  | apo (a b : Int) : SidesRead (APO a b) [.close]
  | macd (a b c : Int) : SidesRead (MACD a b c) [.close]
  | ppo (a b c : Int) : SidesRead (PPO a b c) [.close]
  | rsi (p : Int) : SidesRead (RSI p) [.close]
  | stochRsi (a b c d : Int) : SidesRead (StochRSI a b c d) [.close]
  | aiCoinCCI (p : Int) : SidesRead (AiCCI p) [.close]
  | vegas (p a b c d : Int) : SidesRead (Vegas p a b c d) [.close, .bull]
  | traderXO (a b : Int) : SidesRead (XO a b) [.close]
  | boll (p k : Int) : SidesRead (Boll p k) [.close]
  | donchian (p : Int) : SidesRead (Donchian p) [.close]
  | awesome : SidesRead Awesome [.high, .low]
  | cci (p q : Int) : SidesRead (CCIi p q) [.high, .low, .close]
  | superTrend (p m : Int) (c : Bool) : SidesRead (ST p m c) [.high, .low, .close]
  | pivotPointSuperTrend (p a : Int) (f : F) : SidesRead (PPST p a f) [.high, .low, .close]
  | utBot (p a : Int) : SidesRead (UT p a) [.high, .low, .close]
  | kdj (p : Int) : SidesRead (KDJ p) [.high, .low, .close]
  | stochasticHeat (a b c d : Int) (k : MAKind) : SidesRead (Heat a b c d k) [.high, .low, .close]
  | stoch (p : Int) : SidesRead (Stoch p) [.high, .low, .close]
  | williams (p : Int) : SidesRead (Williams p) [.high, .low, .close]
  | projection (a b : Int) : SidesRead (Projection a b) [.high, .low, .close]
  | ichimoku (a b c : Int) : SidesRead (Ichimoku a b c) [.high, .low, .close]
  | keltner (p : Int) : SidesRead (Keltner p) [.high, .low, .close]
  | chaikin (a b : Int) : SidesRead (Chaikin a b) [.high, .low, .close, .volume]
  | mfi (p : Int) : SidesRead (MFI p) [.high, .low, .close, .volume]

theorem pairSide_congr {D : Type} {rule : D → D → Side} {g g' : Nat → D}
    (h : ∀ k, rule (g k) (g (k + 1)) = rule (g' k) (g' (k + 1))) : pairSide rule g = pairSide rule g' := by
  funext i; cases i with
  | zero => rfl
  | succ k => exact h k

theorem closeSide_congr {D : Type} {rule : D → D → F → F → Side} {g g' : Nat → D} {c c' : Nat → F}
    (h : ∀ k, rule (g k) (g (k + 1)) (c k) (c (k + 1)) = rule (g' k) (g' (k + 1)) (c' k) (c' (k + 1))) :
    closeSide rule g c = closeSide rule g' c' := by
  funext i; cases i with
  | zero => rfl
  | succ k => exact h k

theorem SidesRead.form {I : Strat F} {cols : List Col} (h : SidesRead I cols) :
    ∃ ok f, Signals I ok f ∧ ∀ x y, AgreeOn cols x y → f x = f y := by
  cases h with
  | apo a b => exact ⟨_, _, APO.signals a b, fun x y h => pairSide_congr fun k => by
      simp only [zeroRule, APO.out, h.cl (by simp)] <;> rfl⟩
  | macd a b c => exact ⟨_, _, MACD.signals a b c, fun x y h => pairSide_congr fun k => by
      simp only [MACD.rule, MACD.out, difF_congr a c (h.cl (by simp))] <;> rfl⟩
  | ppo a b c => exact ⟨_, _, PPO.signals a b c, fun x y h => pairSide_congr fun k => by
      simp only [PPO.rule, PPO.out, ppoF_congr a b (h.cl (by simp))] <;> rfl⟩
  | rsi p => exact ⟨_, _, RSI.signals p, fun x y h => pairSide_congr fun k => by
      simp only [RSI.rule, RSI.out, h.cl (by simp)] <;> rfl⟩
  | stochRsi a b c d => exact ⟨_, _, StochRSI.signals a b c d, fun x y h => pairSide_congr fun k => by
      simp only [KD.rule, StochRSI.out, stochRsiF_congr c d (h.cl (by simp))] <;> rfl⟩
  | aiCoinCCI p => exact ⟨_, _, AiCCI.signals p, fun x y h => pairSide_congr fun k => by
      simp only [CCIi.rule, AiCCI.out, h.cl (by simp)] <;> rfl⟩
  | vegas p a b c d => exact ⟨_, _, Vegas.signals p a b c d, fun x y h => by
      funext i
      simp only [vegasSide, vegasUp, vegasDown, Vegas.rule, Vegas.out, h.cl (by simp), h.bu (by simp)] <;> rfl⟩
  | traderXO a b => exact ⟨_, _, XO.signals a b, fun x y h => by
      have hx : ∀ i, xoF (XO.out a b x) i = xoF (XO.out a b y) i := fun i => by
        induction i with
        | zero => rfl
        | succ k ih => simp only [xoF, ih, XO.step, XO.out, h.cl (by simp)] <;> rfl
      funext i
      rw [hx] <;> rfl⟩
  | boll p k => exact ⟨_, _, Boll.signals p k, fun x y h => closeSide_congr fun k => by
      simp only [Boll.rule, Boll.out, h.cl (by simp)] <;> rfl⟩
  | donchian p => exact ⟨_, _, Donchian.signals p, fun x y h => closeSide_congr fun k => by
      simp only [Band.rule, Donchian.out, h.cl (by simp)] <;> rfl⟩
  | awesome => exact ⟨_, _, Awesome.signals, fun x y h => pairSide_congr fun k => by
      simp only [zeroRule, Awesome.out, medF_congr (h.hi (by simp)) (h.lo (by simp))] <;> rfl⟩
  | cci p q => exact ⟨_, _, CCIi.signals p q, fun x y h => pairSide_congr fun k => by
      simp only [CCIi.rule, CCIi.out, typF_congr (h.hi (by simp)) (h.lo (by simp)) (h.cl (by simp))] <;> rfl⟩
  | superTrend p m c => exact ⟨_, _, ST.signals p m c, fun x y h => pairSide_congr fun k => by
      simp only [ST.rule₂, ST.rule, ST.out, stF_congr p m c (h.hi (by simp)) (h.lo (by simp)) (h.cl (by simp))] <;> rfl⟩
  | pivotPointSuperTrend p a f => exact ⟨_, _, PPST.signals p a f, fun x y h => pairSide_congr fun k => by
      simp only [ST.rule₂, ST.rule, PPST.out, PPST.emit,
        ppstF_congr p a f (h.hi (by simp)) (h.lo (by simp)) (h.cl (by simp))] <;> rfl⟩
  | utBot p a => exact ⟨_, _, UT.signals p a, fun x y h => pairSide_congr fun k => by
      have hu := utF_congr p a (h.hi (by simp)) (h.lo (by simp)) (h.cl (by simp))
      cases k <;> simp only [UT.rule, UT.out, hu, h.cl (by simp)] <;> rfl⟩
  | kdj p => exact ⟨_, _, KDJ.signals p, fun x y h => pairSide_congr fun k => by
      simp only [KDJ.rule, KDJ.out, kF_congr p (h.hi (by simp)) (h.lo (by simp)) (h.cl (by simp)),
        dF_congr p (h.hi (by simp)) (h.lo (by simp)) (h.cl (by simp)),
        rsvF_congr p (h.hi (by simp)) (h.lo (by simp)) (h.cl (by simp))] <;> rfl⟩
  | stochasticHeat a b c d k => exact ⟨_, _, Heat.signals a b c d k, fun x y h => pairSide_congr fun j => by
      simp only [Heat.rule, Heat.out, heatFast_congr a b d k (h.hi (by simp)) (h.lo (by simp)) (h.cl (by simp)),
        heatSlow_congr a b c d k (h.hi (by simp)) (h.lo (by simp)) (h.cl (by simp))] <;> rfl⟩
  | stoch p => exact ⟨_, _, Stoch.signals p, fun x y h => pairSide_congr fun k => by
      simp only [KD.rule, Stoch.out, stochK_congr p (h.hi (by simp)) (h.lo (by simp)) (h.cl (by simp))] <;> rfl⟩
  | williams p => exact ⟨_, _, Williams.signals p, fun x y h => pairSide_congr fun k => by
      simp only [Williams.rule, Williams.out, williamsF_congr p (h.hi (by simp)) (h.lo (by simp)) (h.cl (by simp))] <;> rfl⟩
  | projection a b => exact ⟨_, _, Projection.signals a b, fun x y h => pairSide_congr fun k => by
      simp only [Projection.rule, Projection.out, projF_congr _ (h.hi (by simp)) (h.lo (by simp)) (h.cl (by simp))] <;> rfl⟩
  | ichimoku a b c => exact ⟨_, _, Ichimoku.signals a b c, fun x y h => by
      funext i
      simp only [ichiSide, Ichimoku.rule, Ichimoku.out, midHL_congr _ _ (h.hi (by simp)) (h.lo (by simp)), h.cl (by simp)] <;> rfl⟩
  | keltner p => exact ⟨_, _, Keltner.signals p, fun x y h => closeSide_congr fun k => by
      simp only [Band.rule, Keltner.out, trI_congr (h.hi (by simp)) (h.lo (by simp)) (h.cl (by simp)), h.cl (by simp)] <;> rfl⟩
  | chaikin a b => exact ⟨_, _, Chaikin.signals a b, fun x y h => pairSide_congr fun k => by
      simp only [Chaikin.rule, Chaikin.out, adF_congr (h.hi (by simp)) (h.lo (by simp)) (h.cl (by simp)) (h.vo (by simp))] <;> rfl⟩
  | mfi p => exact ⟨_, _, MFI.signals p, fun x y h => pairSide_congr fun k => by
      simp only [MFI.rule, MFI.out, mfiF_congr _ (h.hi (by simp)) (h.lo (by simp)) (h.cl (by simp)) (h.vo (by simp))] <;> rfl⟩

/-- C123: the signals of a strategy depend on its columns and on nothing else, timestamps included. -/
theorem C123_signals {I : Strat F} {cols : List Col} (h : SidesRead I cols) {it it' : Item F}
    (hs : SameCols cols it it') :
    ((∃ s, I.signals it = .ok s) ↔ ∃ s, I.signals it' = .ok s) ∧
    ∀ s s', I.signals it = .ok s → I.signals it' = .ok s' → s = s' := by
  obtain ⟨ok, f, hf, hxy⟩ := h.form
  obtain ⟨n, x, y, hx, hx', ha⟩ := hs.tabs
  constructor
  · by_cases hok : ok n
    · exact ⟨fun _ => ⟨_, (hf it' n y hx').1 hok⟩, fun _ => ⟨_, (hf it n x hx).1 hok⟩⟩
    · obtain ⟨p, hp⟩ := (hf it n x hx).2 hok
      obtain ⟨q, hq⟩ := (hf it' n y hx').2 hok
      exact ⟨fun ⟨d, hd⟩ => (by rw [hp] at hd; cases hd), fun ⟨d, hd⟩ => (by rw [hq] at hd; cases hd)⟩
  · intro s s' h1 h2
    rw [(signals_inv hf hx h1).2, (signals_inv hf hx' h2).2, hxy x y ha]

/-- C123: the Vegas strategy reads the flag `IsBullMarket`, which the caller has to supply. If the feed leaves it
unset, no candle after the eleventh is ever a buy; if it is set on every candle, none is a sell. -/
theorem C123_vegas_flag (p a b c d : Int) (flag : Bool) {it : Item F} (hf : ∀ v ∈ it.candles, v.isBull = flag) {s : List Side}
    (hs : (Vegas p a b c d).signals it = .ok s) {i : Nat} (hi : 11 ≤ i) {r : Side} (hr : s[i]? = some r) :
    r ≠ if flag then Sell else Buy := by
  obtain ⟨x, hx⟩ := candles_tab it
  rw [(signals_inv (Vegas.signals p a b c d) hx hs).2] at hr
  have hlt : i < it.candles.length := by
    by_contra hn
    rw [List.getElem?_eq_none (by rw [tab_length]; omega)] at hr
    cases hr
  rw [tab_getElem?_lt hlt] at hr
  have hb : bu x i = flag := hf _ (by rw [hx]; exact mem_tab.mpr ⟨i, hlt, rfl⟩)
  rw [← Option.some.inj hr, vegasSide, if_neg (by omega), hb, Vegas.rule]
  cases flag <;> simp only [Bool.and_false, Bool.false_and, Bool.and_true, Bool.not_true, Bool.not_false, if_true,
    Bool.false_eq_true, if_false] <;> split <;> decide

/-! ## No listed column is superfluous -/

/-- The candle with another value in one column. -/
def Col.put : Col → F → Candle F → Candle F
  | .open_, v, a => { a with open_ := v }
  | .high, v, a => { a with high := v }
  | .low, v, a => { a with low := v }
  | .close, v, a => { a with close := v }
  | .volume, v, a => { a with volume := v }
  | .bull, _, a => { a with isBull := !a.isBull }

/-- The series with another value in one column of one candle. -/
def alter (c : Col) (k : Nat) (v : F) (it : Item F) : Item F := { it with candles := it.candles.modify k (c.put v) }

/-- Some series changes its records when a value of the column is changed. -/
def Matters (I : Indicator F) (c : Col) : Prop := ∃ it k v d d',
  I.data it = .ok d ∧ I.data (alter c k v it) = .ok d' ∧ d ≠ d'

omit [GoMath F] in
theorem matters_of {I : Indicator F} {c : Col} {T : Type} [DecidableEq T] (f : I.D → T) (it : Item F) (k : Nat) (v : F)
    (h : (match I.data it, I.data (alter c k v it) with
      | .ok d, .ok d' => decide (d.map f ≠ d'.map f)
      | _, _ => false) = true) : Matters I c := by
  cases h1 : I.data it with
  | error e => simp [h1] at h
  | ok d =>
    cases h2 : I.data (alter c k v it) with
    | error e => simp [h1, h2] at h
    | ok d' =>
      simp only [h1, h2, decide_eq_true_eq] at h
      exact ⟨it, k, v, d, d', h1, h2, fun e => h (by rw [e])⟩

/-- Six candles. -/
def zigzag : Item (XF ℚ) := barItem [⟨2, 3, 1, 2, 10⟩, ⟨2, 5, 2, 4, 20⟩, ⟨4, 5, 3, 3, 15⟩, ⟨3, 6, 3, 5, 30⟩, ⟨5, 7, 4, 6, 10⟩, ⟨6, 6, 2, 3, 40⟩]

/-- No column in the list is superfluous: for each there are a series and a change of one value in this column that
changes the records (for `Boll`, `Ulcer`, `MFI` and the reversal indicator see `C123_needed_more`). -/
theorem C123_needed :
    Matters (F := XF ℚ) (SMA 2) .close ∧
    Matters (F := XF ℚ) (MAi 2) .close ∧
    Matters (F := XF ℚ) (EMA 2) .close ∧
    Matters (F := XF ℚ) (DEMA 2) .close ∧
    Matters (F := XF ℚ) (APO 2 3).toIndicator .close ∧
    Matters (F := XF ℚ) (MACD 2 2 3).toIndicator .close ∧
    Matters (F := XF ℚ) (PPO 2 3 2).toIndicator .close ∧
    Matters (F := XF ℚ) (RSI 2).toIndicator .close ∧
    Matters (F := XF ℚ) (StochRSI 1 1 2 2).toIndicator .close ∧
    Matters (F := XF ℚ) (AiCCI 2).toIndicator .close ∧
    Matters (F := XF ℚ) (Vegas 2 2 3 4 5).toIndicator .close ∧
    Matters (F := XF ℚ) (XO 2 3).toIndicator .close ∧
    Matters (F := XF ℚ) (Donchian 2).toIndicator .close ∧
    Matters (F := XF ℚ) (Awesome.toIndicator) .high ∧
    Matters (F := XF ℚ) (Awesome.toIndicator) .low ∧
    Matters (F := XF ℚ) (CCIi 3 3).toIndicator .high ∧
    Matters (F := XF ℚ) (CCIi 3 3).toIndicator .low ∧
    Matters (F := XF ℚ) (CCIi 3 3).toIndicator .close ∧
    Matters (F := XF ℚ) (ATR 2) .high ∧
    Matters (F := XF ℚ) (ATR 2) .low ∧
    Matters (F := XF ℚ) (ATR 2) .close ∧
    Matters (F := XF ℚ) (ADX 1 2) .high ∧
    Matters (F := XF ℚ) (ADX 1 2) .low ∧
    Matters (F := XF ℚ) (ADX 1 2) .close ∧
    Matters (F := XF ℚ) (ST 2 1 true).toIndicator .high ∧
    Matters (F := XF ℚ) (ST 2 1 true).toIndicator .low ∧
    Matters (F := XF ℚ) (ST 2 1 true).toIndicator .close ∧
    Matters (F := XF ℚ) (PPST 1 2 (.fin 1)).toIndicator .high ∧
    Matters (F := XF ℚ) (PPST 1 2 (.fin 1)).toIndicator .low ∧
    Matters (F := XF ℚ) (PPST 1 2 (.fin 1)).toIndicator .close ∧
    Matters (F := XF ℚ) (UT 1 2).toIndicator .high ∧
    Matters (F := XF ℚ) (UT 1 2).toIndicator .low ∧
    Matters (F := XF ℚ) (UT 1 2).toIndicator .close ∧
    Matters (F := XF ℚ) (Vortex 2) .high ∧
    Matters (F := XF ℚ) (Vortex 2) .low ∧
    Matters (F := XF ℚ) (Vortex 2) .close ∧
    Matters (F := XF ℚ) (KDJ 2).toIndicator .high ∧
    Matters (F := XF ℚ) (KDJ 2).toIndicator .low ∧
    Matters (F := XF ℚ) (KDJ 2).toIndicator .close ∧
    Matters (F := XF ℚ) (Heat 1 1 1 28 .ema).toIndicator .high ∧
    Matters (F := XF ℚ) (Heat 1 1 1 28 .ema).toIndicator .low ∧
    Matters (F := XF ℚ) (Heat 1 1 1 28 .ema).toIndicator .close ∧
    Matters (F := XF ℚ) (Stoch 2).toIndicator .high ∧
    Matters (F := XF ℚ) (Stoch 2).toIndicator .low ∧
    Matters (F := XF ℚ) (Stoch 2).toIndicator .close ∧
    Matters (F := XF ℚ) (Williams 2).toIndicator .high ∧
    Matters (F := XF ℚ) (Williams 2).toIndicator .low ∧
    Matters (F := XF ℚ) (Williams 2).toIndicator .close ∧
    Matters (F := XF ℚ) (Projection 2 2).toIndicator .high ∧
    Matters (F := XF ℚ) (Projection 2 2).toIndicator .low ∧
    Matters (F := XF ℚ) (Projection 2 2).toIndicator .close ∧
    Matters (F := XF ℚ) (Ichimoku 9 26 1).toIndicator .high ∧
    Matters (F := XF ℚ) (Ichimoku 9 26 1).toIndicator .low ∧
    Matters (F := XF ℚ) (Ichimoku 9 26 1).toIndicator .close ∧
    Matters (F := XF ℚ) (Camarilla 2) .high ∧
    Matters (F := XF ℚ) (Camarilla 2) .low ∧
    Matters (F := XF ℚ) (Camarilla 2) .close ∧
    Matters (F := XF ℚ) (Keltner 2).toIndicator .high ∧
    Matters (F := XF ℚ) (Keltner 2).toIndicator .low ∧
    Matters (F := XF ℚ) (Keltner 2).toIndicator .close ∧
    Matters (F := XF ℚ) (BP (.fin 1) 2) .open_ ∧
    Matters (F := XF ℚ) (BP (.fin 1) 2) .high ∧
    Matters (F := XF ℚ) (BP (.fin 1) 2) .low ∧
    Matters (F := XF ℚ) (BP (.fin 1) 2) .close ∧
    Matters (F := XF ℚ) (LRC 2 2 true) .open_ ∧
    Matters (F := XF ℚ) (LRC 2 2 true) .high ∧
    Matters (F := XF ℚ) (LRC 2 2 true) .low ∧
    Matters (F := XF ℚ) (LRC 2 2 true) .close ∧
    Matters (F := XF ℚ) (VolOsc 2 3) .volume ∧
    Matters (F := XF ℚ) (Force 2) .close ∧
    Matters (F := XF ℚ) (Force 2) .volume ∧
    Matters (F := XF ℚ) (NVI) .close ∧
    Matters (F := XF ℚ) (NVI) .volume ∧
    Matters (F := XF ℚ) (OBV) .close ∧
    Matters (F := XF ℚ) (OBV) .volume ∧
    Matters (F := XF ℚ) (VPT 1) .close ∧
    Matters (F := XF ℚ) (VPT 1) .volume ∧
    Matters (F := XF ℚ) (VWMA 2) .close ∧
    Matters (F := XF ℚ) (VWMA 2) .volume ∧
    Matters (F := XF ℚ) (EMV 2) .high ∧
    Matters (F := XF ℚ) (EMV 2) .low ∧
    Matters (F := XF ℚ) (EMV 2) .volume ∧
    Matters (F := XF ℚ) (AD) .high ∧
    Matters (F := XF ℚ) (AD) .low ∧
    Matters (F := XF ℚ) (AD) .close ∧
    Matters (F := XF ℚ) (AD) .volume ∧
    Matters (F := XF ℚ) (CMF 2) .high ∧
    Matters (F := XF ℚ) (CMF 2) .low ∧
    Matters (F := XF ℚ) (CMF 2) .close ∧
    Matters (F := XF ℚ) (CMF 2) .volume ∧
    Matters (F := XF ℚ) (Chaikin 2 3).toIndicator .high ∧
    Matters (F := XF ℚ) (Chaikin 2 3).toIndicator .low ∧
    Matters (F := XF ℚ) (Chaikin 2 3).toIndicator .close ∧
    Matters (F := XF ℚ) (Chaikin 2 3).toIndicator .volume :=
  ⟨matters_of (Rec.value) zigzag 4 (.fin 9) (by decide +kernel),
    matters_of (Rec.value) zigzag 4 (.fin 9) (by decide +kernel),
    matters_of (Rec.value) zigzag 4 (.fin 9) (by decide +kernel),
    matters_of (Rec.value) zigzag 4 (.fin 9) (by decide +kernel),
    matters_of (Rec.value) zigzag 4 (.fin 9) (by decide +kernel),
    matters_of (MACD.Data.dif) zigzag 4 (.fin 9) (by decide +kernel),
    matters_of (PPO.Data.ppo) zigzag 4 (.fin 9) (by decide +kernel),
    matters_of (Rec.value) zigzag 4 (.fin 9) (by decide +kernel),
    matters_of (KD.k) zigzag 4 (.fin (1 / 2)) (by decide +kernel),
    matters_of (Rec.value) zigzag 4 (.fin (1 / 2)) (by decide +kernel),
    matters_of (Vegas.Data.value) zigzag 4 (.fin 9) (by decide +kernel),
    matters_of (XO.Data.fast) zigzag 4 (.fin 9) (by decide +kernel),
    matters_of (Band.upper) zigzag 4 (.fin 9) (by decide +kernel),
    matters_of (Rec.value) zigzag 4 (.fin 9) (by decide +kernel),
    matters_of (Rec.value) zigzag 4 (.fin 9) (by decide +kernel),
    matters_of (Rec.value) zigzag 4 (.fin 9) (by decide +kernel),
    matters_of (Rec.value) zigzag 4 (.fin 9) (by decide +kernel),
    matters_of (Rec.value) zigzag 4 (.fin 9) (by decide +kernel),
    matters_of (ATR.Data.atr) zigzag 4 (.fin 9) (by decide +kernel),
    matters_of (ATR.Data.atr) zigzag 4 (.fin 9) (by decide +kernel),
    matters_of (ATR.Data.atr) zigzag 4 (.fin (1 / 2)) (by decide +kernel),
    matters_of (ADX.Data.plus) zigzag 4 (.fin 9) (by decide +kernel),
    matters_of (ADX.Data.plus) zigzag 4 (.fin 9) (by decide +kernel),
    matters_of (ADX.Data.plus) zigzag 4 (.fin 9) (by decide +kernel),
    matters_of (fun r => (r.up, r.down)) zigzag 4 (.fin 9) (by decide +kernel),
    matters_of (fun r => (r.up, r.down)) zigzag 4 (.fin 9) (by decide +kernel),
    matters_of (fun r => (r.up, r.down)) zigzag 4 (.fin 9) (by decide +kernel),
    matters_of (fun r => (r.up, r.down)) zigzag 4 (.fin 5) (by decide +kernel),
    matters_of (fun r => (r.up, r.down)) zigzag 3 (.fin 9) (by decide +kernel),
    matters_of (fun r => (r.up, r.down)) zigzag 4 (.fin (1 / 2)) (by decide +kernel),
    matters_of (UT.Data.value) zigzag 4 (.fin 9) (by decide +kernel),
    matters_of (UT.Data.value) zigzag 4 (.fin 9) (by decide +kernel),
    matters_of (UT.Data.value) zigzag 4 (.fin 9) (by decide +kernel),
    matters_of (Vortex.Data.plus) zigzag 4 (.fin 9) (by decide +kernel),
    matters_of (Vortex.Data.plus) zigzag 4 (.fin 9) (by decide +kernel),
    matters_of (Vortex.Data.plus) zigzag 4 (.fin 9) (by decide +kernel),
    matters_of (KDJ.Data.k) zigzag 4 (.fin 9) (by decide +kernel),
    matters_of (KDJ.Data.k) zigzag 4 (.fin (1 / 2)) (by decide +kernel),
    matters_of (KDJ.Data.k) zigzag 4 (.fin 9) (by decide +kernel),
    matters_of (Heat.Data.fast) zigzag 4 (.fin 9) (by decide +kernel),
    matters_of (Heat.Data.fast) zigzag 4 (.fin 9) (by decide +kernel),
    matters_of (Heat.Data.fast) zigzag 4 (.fin 9) (by decide +kernel),
    matters_of (KD.k) zigzag 4 (.fin 9) (by decide +kernel),
    matters_of (KD.k) zigzag 4 (.fin (1 / 2)) (by decide +kernel),
    matters_of (KD.k) zigzag 4 (.fin 9) (by decide +kernel),
    matters_of (Rec.value) zigzag 4 (.fin 9) (by decide +kernel),
    matters_of (Rec.value) zigzag 4 (.fin (1 / 2)) (by decide +kernel),
    matters_of (Rec.value) zigzag 4 (.fin 9) (by decide +kernel),
    matters_of (Projection.Data.po) zigzag 4 (.fin 9) (by decide +kernel),
    matters_of (Projection.Data.po) zigzag 4 (.fin 9) (by decide +kernel),
    matters_of (Projection.Data.po) zigzag 4 (.fin 9) (by decide +kernel),
    matters_of (fun r => (r.conversion, r.lagging)) zigzag 4 (.fin 9) (by decide +kernel),
    matters_of (fun r => (r.conversion, r.lagging)) zigzag 4 (.fin (1 / 2)) (by decide +kernel),
    matters_of (fun r => (r.conversion, r.lagging)) zigzag 4 (.fin 9) (by decide +kernel),
    matters_of (Camarilla.Data.h4) zigzag 4 (.fin 9) (by decide +kernel),
    matters_of (Camarilla.Data.h4) zigzag 4 (.fin 9) (by decide +kernel),
    matters_of (Camarilla.Data.h4) zigzag 4 (.fin 9) (by decide +kernel),
    matters_of (Band.upper) zigzag 4 (.fin 9) (by decide +kernel),
    matters_of (Band.upper) zigzag 4 (.fin 9) (by decide +kernel),
    matters_of (Band.upper) zigzag 4 (.fin 9) (by decide +kernel),
    matters_of (fun r => (r.win, r.list.map fun l => l.1)) zigzag 4 (.fin 9) (by decide +kernel),
    matters_of (fun r => (r.win, r.list.map fun l => l.1)) zigzag 4 (.fin 9) (by decide +kernel),
    matters_of (fun r => (r.win, r.list.map fun l => l.1)) zigzag 4 (.fin 9) (by decide +kernel),
    matters_of (fun r => (r.win, r.list.map fun l => l.1)) zigzag 4 (.fin 9) (by decide +kernel),
    matters_of (fun r => (r.op, r.hi, r.lo, r.cl)) zigzag 4 (.fin 9) (by decide +kernel),
    matters_of (fun r => (r.op, r.hi, r.lo, r.cl)) zigzag 4 (.fin 9) (by decide +kernel),
    matters_of (fun r => (r.op, r.hi, r.lo, r.cl)) zigzag 4 (.fin 9) (by decide +kernel),
    matters_of (fun r => (r.op, r.hi, r.lo, r.cl)) zigzag 4 (.fin 9) (by decide +kernel),
    matters_of (Rec.value) zigzag 4 (.fin 9) (by decide +kernel),
    matters_of (Rec.value) zigzag 4 (.fin 9) (by decide +kernel),
    matters_of (Rec.value) zigzag 4 (.fin 9) (by decide +kernel),
    matters_of (Rec.value) zigzag 4 (.fin 9) (by decide +kernel),
    matters_of (Rec.value) zigzag 3 (.fin 9) (by decide +kernel),
    matters_of (Rec.value) zigzag 4 (.fin (1 / 2)) (by decide +kernel),
    matters_of (Rec.value) zigzag 4 (.fin 9) (by decide +kernel),
    matters_of (Rec.value) zigzag 4 (.fin 9) (by decide +kernel),
    matters_of (Rec.value) zigzag 4 (.fin 9) (by decide +kernel),
    matters_of (Rec.value) zigzag 4 (.fin 9) (by decide +kernel),
    matters_of (Rec.value) zigzag 4 (.fin 9) (by decide +kernel),
    matters_of (Rec.value) zigzag 4 (.fin 9) (by decide +kernel),
    matters_of (Rec.value) zigzag 4 (.fin 9) (by decide +kernel),
    matters_of (Rec.value) zigzag 4 (.fin 9) (by decide +kernel),
    matters_of (Rec.value) zigzag 4 (.fin 9) (by decide +kernel),
    matters_of (Rec.value) zigzag 4 (.fin 9) (by decide +kernel),
    matters_of (Rec.value) zigzag 4 (.fin 9) (by decide +kernel),
    matters_of (Rec.value) zigzag 4 (.fin 9) (by decide +kernel),
    matters_of (Rec.value) zigzag 4 (.fin 9) (by decide +kernel),
    matters_of (Rec.value) zigzag 4 (.fin 9) (by decide +kernel),
    matters_of (Rec.value) zigzag 4 (.fin 9) (by decide +kernel),
    matters_of (Rec.value) zigzag 4 (.fin 9) (by decide +kernel),
    matters_of (Chaikin.Data.value) zigzag 4 (.fin 9) (by decide +kernel),
    matters_of (Chaikin.Data.value) zigzag 4 (.fin 9) (by decide +kernel),
    matters_of (Chaikin.Data.value) zigzag 4 (.fin 9) (by decide +kernel),
    matters_of (Chaikin.Data.value) zigzag 4 (.fin 9) (by decide +kernel)⟩

/-- Some square root and some power, for a closed evaluation. -/
@[reducible] def anyMath : GoMath (XF ℚ) :=
  { (inferInstance : GoFloat (XF ℚ)) with
    sqrt := id, pow := fun x _ => fl 1 /. x, atan := id, round := id, degPerRad := fl 57 }

/-- Fourteen falling candles. -/
def slide : Item (XF ℚ) := barItem ((List.range 14).map fun k => ⟨20 - k, 21 - k, 18 - k, 19 - k, 1⟩)

/-- Fourteen rising candles. -/
def climb : Item (XF ℚ) := barItem ((List.range 14).map fun k => ⟨20 + k, 22 + k, 19 + k, 21 + k, 1⟩)

/-- The remaining indicators, the mathematical library being any. -/
theorem C123_needed_more :
    Matters (F := XF ℚ) (@Boll _ anyMath 2 2).toIndicator .close ∧ Matters (F := XF ℚ) (@Ulcer _ anyMath 2) .close ∧
    Matters (F := XF ℚ) (@MFI _ anyMath 2).toIndicator .high ∧ Matters (F := XF ℚ) (@MFI _ anyMath 2).toIndicator .low ∧
    Matters (F := XF ℚ) (@MFI _ anyMath 2).toIndicator .close ∧ Matters (F := XF ℚ) (@MFI _ anyMath 2).toIndicator .volume ∧
    Matters (F := XF ℚ) Rev .high ∧ Matters (F := XF ℚ) Rev .low ∧ Matters (F := XF ℚ) Rev .close :=
  ⟨matters_of Boll.Data.upper zigzag 4 (.fin 9) (by decide +kernel), matters_of Rec.value zigzag 4 (.fin 9) (by decide +kernel),
    matters_of Rec.value zigzag 4 (.fin 9) (by decide +kernel), matters_of Rec.value zigzag 4 (.fin 9) (by decide +kernel),
    matters_of Rec.value zigzag 4 (.fin 9) (by decide +kernel), matters_of Rec.value zigzag 4 (.fin 9) (by decide +kernel),
    matters_of Rev.Data.side climb 9 (.fin 50) (by decide +kernel),
    matters_of Rev.Data.side slide 9 (.fin 5) (by decide +kernel),
    matters_of Rev.Data.side slide 10 (.fin 50) (by decide +kernel)⟩

/-- Two series with the same closes and nothing else in common have the same averages. -/
example : SameCols [.close] (barItem (K := ℚ) [⟨2, 3, 1, 2, 10⟩, ⟨2, 5, 2, 4, 20⟩])
      { exchange := "y", interval := 1, symbol := "t", code := "", candles :=
        [⟨.fin 9, 7, .fin 8, .fin 2, .fin 0, .nan, .fin 6, .fin 1, true, 99⟩,
         ⟨.fin 9, 7, .fin 8, .fin 4, .fin 5, .pinf, .fin 6, .fin 1, true, 0⟩] } ∧
    (EMA (F := XF ℚ) 2).data (barItem [⟨2, 3, 1, 2, 10⟩, ⟨2, 5, 2, 4, 20⟩]) = .ok [⟨0, .fin 2⟩, ⟨0, .fin (10 / 3)⟩] :=
  ⟨by simp [SameCols, barItem, candleOf, Col.Agree], by decide +kernel⟩

/-- Falling and then rising prices. -/
def valley (flag : Bool) : Item (XF ℚ) :=
  { exchange := "x", interval := 60, symbol := "s", code := "c",
    candles := ([9, 8, 7, 6, 5, 4, 3, 2, 1, 2, 3, 4, 5, 6, 7, 8] : List ℚ).map fun (c : ℚ) =>
      { candleOf 0 c c c c 1 with isBull := flag } }

/-- With the flag the recovery is bought, without it nothing is; the other columns are the same. -/
theorem C123_vegas_needs_flag :
    (Vegas (F := XF ℚ) 1 2 3 4 5).signals (valley true) = .ok (List.replicate 11 Buy ++ [Hold, Buy, Buy, Buy, Buy]) ∧
    (Vegas (F := XF ℚ) 1 2 3 4 5).signals (valley false) = .ok (List.replicate 11 Buy ++ List.replicate 5 Hold) ∧
    SameCols [.open_, .high, .low, .close, .volume] (valley true) (valley false) ∧ ∀ v ∈ (valley false).candles, v.isBull = false :=
  ⟨by decide +kernel, by decide +kernel, by simp [SameCols, valley, candleOf, Col.Agree], by simp [valley, candleOf]⟩

/-- The signals of two series with the same closes, stamped differently. -/
example : @SidesRead (XF ℚ) anyMath (MACD 12 26 9) [.close] ∧
    SameCols [.close] (valley true) { valley false with candles := (valley false).candles.map fun v => { v with timeUnix := 7 } } :=
  ⟨@SidesRead.macd _ anyMath 12 26 9, by simp [SameCols, valley, candleOf, Col.Agree]⟩

end Verif.Props
