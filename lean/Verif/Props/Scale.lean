import Verif.Ind.Scale
import Verif.Props.Percent
import Verif.Go.Real

/-!
# Change of units (C55)
-/

set_option linter.unusedSectionVars false

namespace Verif.Props
open Verif Verif.Klines Verif.Ta Verif.Ind GoFloat XF

/-! ## Spec -/

section spec
variable {K : Type} [Field K] [LinearOrder K] [IsStrictOrderedRing K]

/-- The same market quoted in another unit: prices times `c`, volumes times `e`. -/
def rescale (c e : K) (it : Item (XF K)) : Item (XF K) :=
  { it with
    candles := it.candles.map fun k => { k with
      open_ := times c k.open_, high := times c k.high, low := times c k.low, close := times c k.close,
      volume := times e k.volume, amount := times c (times e k.amount) } }

/-- In the other unit the indicator yields the same records converted by `φ`, and panics in one unit
exactly when it panics in the other. -/
def Rescales (c e : K) (I : Indicator (XF K)) (φ : I.D → I.D) : Prop :=
  ∀ it, (I.data (rescale c e it)).toOption = (I.data it).toOption.map (List.map φ)

/-- The signals are the same in both units. -/
def SignalsUnitFree (c e : K) (I : Strat (XF K)) : Prop :=
  ∀ it, (I.signals (rescale c e it)).toOption = (I.signals it).toOption

end spec

section generic
variable {F : Type} [GoFloat F] {σ τ : Scaling F}

local macro "cols" : tactic => `(tactic| simp only [cl_unit, op_unit, hi_unit, lo_unit, vo_unit, ti_unit, bu_unit])
local macro "cl!" : term => `(cl_unit (σ := σ) (τ := τ) (x := x))
local notation "x'" x => fun j => inUnit σ τ (x j)

theorem sma_u (p : Int) (x) (i : Nat) :
    SMA.out p (fun j => inUnit σ τ (x j)) i = { SMA.out p x i with value := σ.s (SMA.out p x i).value } := by
  simp only [SMA.out, smaF_scale σ (cl_unit (σ := σ) (τ := τ) (x := x))]; cols

theorem ema_u (p : Int) (x) (i : Nat) :
    EMA.out p (fun j => inUnit σ τ (x j)) i = { EMA.out p x i with value := σ.s (EMA.out p x i).value } := by
  simp only [EMA.out, emaF_scale σ (cl_unit (σ := σ) (τ := τ) (x := x))]; cols

theorem dema_u (p : Int) (x) (i : Nat) :
    DEMA.out p (fun j => inUnit σ τ (x j)) i = { DEMA.out p x i with value := σ.s (DEMA.out p x i).value } := by
  simp only [DEMA.out, demaF_scale σ (cl_unit (σ := σ) (τ := τ) (x := x))]; cols

theorem macd_u (a b c : Int) (x) (i : Nat) :
    MACD.out a b c (fun j => inUnit σ τ (x j)) i =
      ⟨(MACD.out a b c x i).time, σ.s (MACD.out a b c x i).dif, σ.s (MACD.out a b c x i).dea,
        σ.s (MACD.out a b c x i).macd⟩ := by
  simp only [MACD.out, difF_unit, emaF_scale σ (difF_unit (σ := σ) (τ := τ) (x := x) a c)]; cols; unit_simp

theorem apo_u (a b : Int) (x) (i : Nat) :
    APO.out a b (fun j => inUnit σ τ (x j)) i = { APO.out a b x i with value := σ.s (APO.out a b x i).value } := by
  simp only [APO.out, emaF_scale σ (cl_unit (σ := σ) (τ := τ) (x := x)), subF_scale]; cols

theorem awesome_u (x) (i : Nat) :
    Awesome.out (fun j => inUnit σ τ (x j)) i = { Awesome.out x i with value := σ.s (Awesome.out x i).value } := by
  simp only [Awesome.out, emaF_scale σ (medF_unit (σ := σ) (τ := τ) (x := x)), subF_scale]; cols

theorem atr_u (p : Int) (x) (i : Nat) :
    ATR.out p (fun j => inUnit σ τ (x j)) i =
      ⟨(ATR.out p x i).time, σ.s (ATR.out p x i).tr, σ.s (ATR.out p x i).atr⟩ := by
  simp only [ATR.out, trI_unit, rmaF_scale σ (trI_unit (σ := σ) (τ := τ) (x := x))]; cols

/-- Converts the lines of the Vegas tunnel. -/
def vegasIn (s : F → F) (r : Vegas.Data F) : Vegas.Data F :=
  ⟨r.time, s r.value, s r.short1, s r.short2, s r.long1, s r.long2⟩

theorem vegas_u (p s1 s2 l1 l2 : Int) (x) (i : Nat) :
    Vegas.out p s1 s2 l1 l2 (fun j => inUnit σ τ (x j)) i = vegasIn σ.s (Vegas.out p s1 s2 l1 l2 x i) := by
  simp only [Vegas.out, vegasIn, emaF_scale σ (cl_unit (σ := σ) (τ := τ) (x := x))]; cols

/-- Converts the linear regression candles. -/
def lrcIn (s : F → F) (r : LRC.Data F) : LRC.Data F := ⟨r.time, s r.op, s r.cl, s r.hi, s r.lo, s r.signal⟩

theorem lrc_u (sm len : Int) (b : Bool) (x) (i : Nat) :
    LRC.out sm len b (fun j => inUnit σ τ (x j)) i = lrcIn σ.s (LRC.out sm len b x i) := by
  simp only [LRC.out, lrcIn, lrF_end_scale σ (cl_unit (σ := σ) (τ := τ) (x := x)),
    lrF_end_scale σ (op_unit (σ := σ) (τ := τ) (x := x)), lrF_end_scale σ (hi_unit (σ := σ) (τ := τ) (x := x)),
    lrF_end_scale σ (lo_unit (σ := σ) (τ := τ) (x := x)),
    smaF_scale σ (lrF_end_scale σ (cl_unit (σ := σ) (τ := τ) (x := x)) _),
    emaF_scale σ (lrF_end_scale σ (cl_unit (σ := σ) (τ := τ) (x := x)) _)]
  cols; cases b <;> rfl

theorem xo_u (a b : Int) (x) (i : Nat) :
    XO.out a b (fun j => inUnit σ τ (x j)) i = ⟨(XO.out a b x i).time, σ.s (XO.out a b x i).fast, σ.s (XO.out a b x i).slow⟩ := by
  simp only [XO.out, emaF_scale σ (cl_unit (σ := σ) (τ := τ) (x := x))]; cols

/-- Converts the supertrend lines. -/
def stIn (s : F → F) (r : ST.Data F) : ST.Data F := ⟨r.time, s r.up, s r.upBegin, s r.down, s r.downBegin⟩

theorem st_u (p m : Int) (x) (i : Nat) :
    ST.out p m true (fun j => inUnit σ τ (x j)) i = stIn σ.s (ST.out p m true x i) := by
  simp only [ST.out, stIn, stF_unit, ST.St.conv]; cols

theorem ppst_u (p a : Int) (f : F) (x) (i : Nat) :
    PPST.out p a f (fun j => inUnit σ τ (x j)) i = stIn σ.s (PPST.out p a f x i) := by
  cases i with
  | zero => simp only [PPST.out, stIn, ST.zero, σ.zero]
  | succ i => simp only [PPST.out, PPST.emit, stIn, ppstF_unit, PPST.St.conv]; cols; unit_simp

theorem ut_u (p a : Int) (x) (i : Nat) :
    UT.out p a (fun j => inUnit σ τ (x j)) i = ⟨(UT.out p a x i).time, σ.s (UT.out p a x i).close, σ.s (UT.out p a x i).value⟩ := by
  cases i with
  | zero => simp only [UT.out, UT.zero, σ.zero]
  | succ i => simp only [UT.out, utF_unit]; cols

/-- Converts the lines of a channel. -/
def bandIn (s : F → F) (r : Band F) : Band F := ⟨r.time, s r.upper, s r.middle, s r.lower⟩

theorem donchian_u (p : Int) (x) (i : Nat) :
    Donchian.out p (fun j => inUnit σ τ (x j)) i = bandIn σ.s (Donchian.out p x i) := by
  simp only [Donchian.out, bandIn, maxF_scale σ (cl_unit (σ := σ) (τ := τ) (x := x)),
    minF_scale σ (cl_unit (σ := σ) (τ := τ) (x := x))]; cols; unit_simp

theorem keltner_u (p : Int) (x) (i : Nat) :
    Keltner.out p (fun j => inUnit σ τ (x j)) i = bandIn σ.s (Keltner.out p x i) := by
  simp only [Keltner.out, bandIn, emaF_scale σ (cl_unit (σ := σ) (τ := τ) (x := x)),
    rmaF_scale σ (trI_unit (σ := σ) (τ := τ) (x := x)), σ.mul_left, subF_scale]; cols; unit_simp

/-- Converts the Ichimoku lines. -/
def ichiIn (s : F → F) (r : Ichimoku.Data F) : Ichimoku.Data F :=
  ⟨r.time, s r.conversion, s r.base, s r.spanA, s r.spanB, s r.lagging⟩

theorem ichi_u (a b c : Int) (x) (i : Nat) :
    Ichimoku.out a b c (fun j => inUnit σ τ (x j)) i = ichiIn σ.s (Ichimoku.out a b c x i) := by
  simp only [Ichimoku.out, ichiIn, midHL_unit, shiftF_scale σ (cl_unit (σ := σ) (τ := τ) (x := x)) σ.zero.symm]
  cols; unit_simp

/-- Converts the Camarilla levels. -/
def camIn (s : F → F) (r : Camarilla.Data F) : Camarilla.Data F :=
  ⟨r.time, s r.pivot, s r.ema, s r.h1, s r.h2, s r.h3, s r.h4, s r.h5, s r.h6, s r.l1, s r.l2, s r.l3, s r.l4,
    s r.l5, s r.l6⟩

theorem cam_u (p : Int) (x) (i : Nat) :
    Camarilla.out p (fun j => inUnit σ τ (x j)) i = camIn σ.s (Camarilla.out p x i) := by
  simp only [Camarilla.out, getCamarilla, camIn, emaF_scale σ (cl_unit (σ := σ) (τ := τ) (x := x))]
  cols; unit_simp

theorem vwma_u (p : Int) (x) (i : Nat) :
    VWMA.out p (fun j => inUnit σ τ (x j)) i = { VWMA.out p x i with value := σ.s (VWMA.out p x i).value } := by
  have h : ∀ k, runSum p.toNat (fun j => cl (fun j => inUnit σ τ (x j)) j *. vo (fun j => inUnit σ τ (x j)) j) k =
      τ.s (σ.s (runSum p.toNat (fun j => cl x j *. vo x j) k)) := by
    intro k
    rw [← runSum_scale σ (x := fun j => cl x j *. vo x j) (fun j => rfl), ← runSum_scale τ (fun j => rfl)]
    cols; unit_simp
  simp only [VWMA.out, h, runSum_scale τ (vo_unit (σ := σ) (τ := τ) (x := x)), safeDiv_both]; rw [safeDiv_left]; cols

/-! pure numbers -/

theorem cci_u (p q : Int) (x) (i : Nat) : CCIi.out p q (fun j => inUnit σ τ (x j)) i = CCIi.out p q x i := by
  simp only [CCIi.out, cciF_scale σ (typF_unit (σ := σ) (τ := τ) (x := x))]; cols

theorem aicci_u (p : Int) (x) (i : Nat) : AiCCI.out p (fun j => inUnit σ τ (x j)) i = AiCCI.out p x i := by
  simp only [AiCCI.out, aiCciF_scale σ (cl_unit (σ := σ) (τ := τ) (x := x))]; cols

theorem stoch_u (p : Int) (x) (i : Nat) : Stoch.out p (fun j => inUnit σ τ (x j)) i = Stoch.out p x i := by
  have h : stochK p (fun j => inUnit σ τ (x j)) = stochK p x := funext fun j => stochK_unit _ _
  simp only [Stoch.out, h]; cols

theorem williams_u (p : Int) (x) (i : Nat) : Williams.out p (fun j => inUnit σ τ (x j)) i = Williams.out p x i := by
  simp only [Williams.out, williamsF_unit]; cols

theorem ppo_u (a b c : Int) (x) (i : Nat) : PPO.out a b c (fun j => inUnit σ τ (x j)) i = PPO.out a b c x i := by
  have h : ppoF a b (fun j => inUnit σ τ (x j)) = ppoF a b x := funext fun j => ppoF_unit _ _ _
  simp only [PPO.out, h]; cols

theorem proj_u (a b : Int) (x) (i : Nat) :
    Projection.out a b (fun j => inUnit σ τ (x j)) i = Projection.out a b x i := by
  have h : projF a.toNat (fun j => inUnit σ τ (x j)) = projF a.toNat x := funext fun j => projF_unit _ _
  simp only [Projection.out, h]; cols

theorem adx_u (a b : Int) (x) (i : Nat) : ADX.out a b (fun j => inUnit σ τ (x j)) i = ADX.out a b x i := by
  have h : adxDX a b (fun j => inUnit σ τ (x j)) = adxDX a b x := funext fun j => adxDX_unit _ _ _
  simp only [ADX.out, h, adxPlus_unit, adxMinus_unit]; cols

theorem vortex_u (a : Int) (x) (i : Nat) : Vortex.out a (fun j => inUnit σ τ (x j)) i = Vortex.out a x i := by
  simp only [Vortex.out, viPlus_unit, viMinus_unit]; cols

theorem heat_u (a b c d : Int) (k : MAKind) (x) (i : Nat) :
    Heat.out a b c d k (fun j => inUnit σ τ (x j)) i = Heat.out a b c d k x i := by
  simp only [Heat.out, heatSlow, heatFast_unit]; cols

theorem rev_u (x) (i : Nat) : Rev.out (fun j => inUnit σ τ (x j)) i = Rev.out x i := by
  simp only [Rev.out, revF_unit, Rev.decide]; cols; unit_simp

theorem cmf_u (p : Int) (x) (i : Nat) : CMF.out p (fun j => inUnit σ τ (x j)) i = CMF.out p x i := by
  simp only [CMF.out, runSum_scale τ (vo_unit (σ := σ) (τ := τ) (x := x)),
    runSum_scale τ (mfv_unit (σ := σ) (τ := τ) (x := x)), safeDiv_both]; cols

theorem nvi_u (x) (i : Nat) : NVI.out (fun j => inUnit σ τ (x j)) i = NVI.out x i := by
  simp only [NVI.out, nviF_unit]; cols

theorem volosc_u (a b : Int) (x) (i : Nat) : VolOsc.out a b (fun j => inUnit σ τ (x j)) i = VolOsc.out a b x i := by
  have h : ∀ j, nzVol (fun j => inUnit σ τ (x j)) j = τ.s (nzVol x j) := by
    intro j; simp only [nzVol]; cols; conv_lhs => rw [← τ.zero, nz_scale]
  simp only [VolOsc.out, emaF_scale τ h, subF_scale, safeDiv_both]; cols

/-! volumes -/

theorem ad_u (x) (i : Nat) :
    AD.out (fun j => inUnit σ τ (x j)) i = { AD.out x i with value := τ.s (AD.out x i).value } := by
  simp only [AD.out, adF_unit]; cols

theorem chaikin_u (a b : Int) (x) (i : Nat) :
    Chaikin.out a b (fun j => inUnit σ τ (x j)) i =
      ⟨(Chaikin.out a b x i).time, τ.s (Chaikin.out a b x i).value, τ.s (Chaikin.out a b x i).ad⟩ := by
  simp only [Chaikin.out, adF_unit, emaF_scale τ (adF_unit (σ := σ) (τ := τ) (x := x)), subF_scale]; cols

theorem obv_u (x) (i : Nat) :
    OBV.out (fun j => inUnit σ τ (x j)) i = { OBV.out x i with value := τ.s (OBV.out x i).value } := by
  simp only [OBV.out, obvF_unit]; cols

theorem vpt_u (p : Int) (x) (i : Nat) :
    VPT.out p (fun j => inUnit σ τ (x j)) i = { VPT.out p x i with value := τ.s (VPT.out p x i).value } := by
  simp only [VPT.out, accum_scale τ (vpt1_unit (σ := σ) (τ := τ) (x := x) p.toNat)]; cols

theorem force_u (p : Int) (x) (i : Nat) :
    Force.out p (fun j => inUnit σ τ (x j)) i = { Force.out p x i with value := τ.s (σ.s (Force.out p x i).value) } := by
  have h : ∀ k, emaF p (fun j => subF (cl (fun j => inUnit σ τ (x j)) j)
        (shiftF 1 (fl 0) (cl (fun j => inUnit σ τ (x j))) j) *. vo (fun j => inUnit σ τ (x j)) j) k =
      τ.s (σ.s (emaF p (fun j => subF (cl x j) (shiftF 1 (fl 0) (cl x) j) *. vo x j) k)) := by
    intro k
    rw [← emaF_scale σ (fun j => rfl), ← emaF_scale τ (fun j => rfl)]
    simp only [shiftF_scale σ (cl_unit (σ := σ) (τ := τ) (x := x)) σ.zero.symm]
    cols; simp only [subF_scale]; unit_simp
  simp only [Force.out, h]; cols

/-- Converts a breakout line. -/
def lineIn (s : F → F) (r : BP.Line F) : BP.Line F := { r with price := s r.price }

theorem bp_score_u (x : F) (g r : Bool) (a b : Int) (h hp l lp : F) :
    BP.score (σ.s x) g r a b (σ.s h) (σ.s hp) (σ.s l) (σ.s lp) = BP.score x g r a b h hp l lp := by
  funext w; simp only [BP.score]; unit_simp

theorem bp_backtest_u (s : BP.St F) (h hp l v : F) :
    BP.backtest s (σ.s h) (σ.s hp) (σ.s l) (σ.s v) = BP.backtest s h hp l v := by
  simp only [BP.backtest]; unit_simp

theorem bp_lines_u (n : Int) (g r : Bool) (h l st : F) (rows : List (BP.Row F)) :
    BP.lines n g r (σ.s h) (σ.s l) (σ.s st) rows = (BP.lines n g r h l st rows).map (lineIn σ.s) := by
  have e : ∀ (i : Nat) (w : BP.Row F), BP.line g r (σ.s h) (σ.s l) (σ.s st) i w =
      (BP.line g r h l st i w).map fun p => (lineIn σ.s p.1, lineIn σ.s p.2) := by
    intro i w
    simp only [BP.line]
    unit_simp
    split <;> rfl
  have hz : lineIn σ.s ⟨fl 0, fl 0, false⟩ = (⟨fl 0, fl 0, false⟩ : BP.Line F) := by rw [lineIn, σ.zero]
  simp only [BP.lines, List.map_append, tab, List.map_map]
  congr 1 <;>
  · refine List.map_congr_left fun i _ => ?_
    simp only [Function.comp]
    by_cases hi : (i : Int) < n
    · simp only [if_pos hi]
      cases rows[i]? with
      | none => exact hz.symm
      | some w =>
        simp only [Option.bind_some, e]
        cases BP.line g r h l st i w with
        | none => exact hz.symm
        | some p => rfl
    · simp only [if_neg hi]; exact hz.symm

theorem bp_step_u (ps : F) (n : Int) (s : BP.St F) (o h l c o' h' l' c' : F) (t t' : Int) :
    BP.step ps n s ⟨t, σ.s o, σ.s h, σ.s l, σ.s c⟩ ⟨t', σ.s o', σ.s h', σ.s l', σ.s c'⟩ =
      ((BP.step ps n s ⟨t, o, h, l, c⟩ ⟨t', o', h', l', c'⟩).1,
        { (BP.step ps n s ⟨t, o, h, l, c⟩ ⟨t', o', h', l', c'⟩).2 with
          list := (BP.step ps n s ⟨t, o, h, l, c⟩ ⟨t', o', h', l', c'⟩).2.list.map (lineIn σ.s) }) := by
  have e : [fl 0, σ.s c' *. (ps /. fl 100), σ.s c' *. (ps /. fl 100) *. fl 2,
      σ.s c' *. (ps /. fl 100) *. fl 3, σ.s c' *. (ps /. fl 100) *. fl 4] =
      [fl 0, c' *. (ps /. fl 100), c' *. (ps /. fl 100) *. fl 2,
        c' *. (ps /. fl 100) *. fl 3, c' *. (ps /. fl 100) *. fl 4].map σ.s := by
    simp only [List.map, σ.mul_left, σ.zero]
  have hg : (σ.s c >. σ.s o) = (c >. o) := σ.lt _ _
  have hr : (σ.s c <. σ.s o) = (c <. o) := σ.lt _ _
  dsimp only [BP.step]
  rw [e, hg, hr, List.zipWith_map_left]
  simp only [bp_score_u, σ.mul_left, bp_lines_u, bp_backtest_u]

theorem bpF_u (ps : F) (n : Int) (x : Nat → Candle F) (i : Nat) :
    bpF ps n (fun j => inUnit σ τ (x j)) i = bpF ps n x i := by
  induction i with
  | zero => rfl
  | succ i ih => 
    rw [bpF, bpF, ih]
    have h := congrArg Prod.fst (bp_step_u (σ := σ) ps (BP.clamp n) (bpF ps n x i) (op x i) (hi x i) (lo x i) (cl x i)
      (op x (i + 1)) (hi x (i + 1)) (lo x (i + 1)) (cl x (i + 1)) (ti x i) (ti x (i + 1)))
    exact h

theorem bp_u (ps : F) (n : Int) (x) (i : Nat) :
    BP.out ps n (fun j => inUnit σ τ (x j)) i =
      { BP.out ps n x i with list := (BP.out ps n x i).list.map (lineIn σ.s) } := by
  cases i with
  | zero => rfl
  | succ i => 
    rw [BP.out, BP.out, bpF_u]
    have h := congrArg Prod.snd (bp_step_u (σ := σ) ps (BP.clamp n) (bpF ps n x i) (op x i) (hi x i) (lo x i) (cl x i)
      (op x (i + 1)) (hi x (i + 1)) (lo x (i + 1)) (cl x (i + 1)) (ti x i) (ti x (i + 1)))
    exact h

/-! rules -/

theorem zeroRule_u (r q : Rec F) :
    zeroRule { r with value := σ.s r.value } { q with value := σ.s q.value } = zeroRule r q := by
  simp only [zeroRule, crossRule]; unit_simp

theorem chaikinRule_u (r q : Chaikin.Data F) :
    Chaikin.rule ⟨r.time, τ.s r.value, τ.s r.ad⟩ ⟨q.time, τ.s q.value, τ.s q.ad⟩ = Chaikin.rule r q := by
  simp only [Chaikin.rule, crossRule]; unit_simp

theorem macdRule_u (r q : MACD.Data F) :
    MACD.rule ⟨r.time, σ.s r.dif, σ.s r.dea, σ.s r.macd⟩ ⟨q.time, σ.s q.dif, σ.s q.dea, σ.s q.macd⟩ = MACD.rule r q := by
  simp only [MACD.rule]; unit_simp

theorem stRule_u (r q : ST.Data F) : ST.rule₂ (stIn σ.s r) (stIn σ.s q) = ST.rule₂ r q := by
  simp only [ST.rule₂, ST.rule, stIn]; unit_simp

theorem utRule_u (r q : UT.Data F) :
    UT.rule ⟨r.time, σ.s r.close, σ.s r.value⟩ ⟨q.time, σ.s q.close, σ.s q.value⟩ = UT.rule r q := by
  simp only [UT.rule]; unit_simp

theorem bandRule_u (r q : Band F) (a b : F) : Band.rule (bandIn σ.s r) (bandIn σ.s q) (σ.s a) (σ.s b) = Band.rule r q a b := by
  simp only [Band.rule, bandIn]; unit_simp

theorem ichiSide_u (a b d : Int) (x) (i : Nat) :
    ichiSide a b d (fun j => inUnit σ τ (x j)) i = ichiSide a b d x i := by
  simp only [ichiSide, ichi_u, Ichimoku.rule, ichiIn]; cols; unit_simp

theorem vegasSide_u (p s1 s2 l1 l2 : Int) (x) (i : Nat) :
    vegasSide (Vegas.out p s1 s2 l1 l2 fun j => inUnit σ τ (x j)) (fun j => inUnit σ τ (x j)) i =
      vegasSide (Vegas.out p s1 s2 l1 l2 x) x i := by
  simp only [vegasSide, vegasUp, vegasDown, vegas_u, Vegas.rule, vegasIn]; cols; unit_simp; rfl

theorem xoF_u (a b : Int) (x) (i : Nat) :
    xoF (XO.out a b fun j => inUnit σ τ (x j)) i = xoF (XO.out a b x) i := by
  induction i with
  | zero => rfl
  | succ i ih => rw [xoF, xoF, ih]; simp only [XO.step, xo_u]; unit_simp

/-! with square roots and powers -/

end generic

section math
variable {F : Type} [GoMath F] {σ τ : Scaling F}

local macro "cols" : tactic => `(tactic| simp only [cl_unit, op_unit, hi_unit, lo_unit, vo_unit, ti_unit, bu_unit])

theorem ulcer_u (p : Int) (x) (i : Nat) : Ulcer.out p (fun j => inUnit σ τ (x j)) i = Ulcer.out p x i := by
  have h : ∀ j, ddF p (fun j => inUnit σ τ (x j)) j = ddF p x j := by
    intro j
    simp only [ddF, maxF_scale σ (cl_unit (σ := σ) (τ := τ) (x := x))]
    cols; simp only [subF_scale, safeDiv_both]
  simp only [Ulcer.out, h]; cols

theorem rawF_u (x) (i : Nat) : rawF (fun j => inUnit σ τ (x j)) i = τ.s (σ.s (rawF x i)) := by
  simp only [rawF]; cols; unit_simp

theorem subF_two (a b : F) : subF (τ.s (σ.s a)) (τ.s (σ.s b)) = τ.s (σ.s (subF a b)) := by
  rw [subF_scale, subF_scale]

theorem flowF_u (x) (i : Nat) : flowF (fun j => inUnit σ τ (x j)) i = τ.s (σ.s (flowF x i)) := by
  have h : shiftF 1 (fl 0) (rawF fun j => inUnit σ τ (x j)) i = τ.s (σ.s (shiftF 1 (fl 0) (rawF x) i)) := by
    rw [shiftF_scale τ (x := fun j => σ.s (rawF x j)) (rawF_u x) τ.zero.symm,
      shiftF_scale σ (x := rawF x) (fun _ => rfl) σ.zero.symm]
  simp only [flowF, h, rawF_u, subF_two]; unit_simp

theorem mfi_u (p : Int) (x) (i : Nat) : MFI.out p (fun j => inUnit σ τ (x j)) i = MFI.out p x i := by
  have h1 : ∀ k, runSum p.toNat (fun j => if flowF (fun j => inUnit σ τ (x j)) j >. fl 0
      then flowF (fun j => inUnit σ τ (x j)) j else fl 0) k =
      τ.s (σ.s (runSum p.toNat (fun j => if flowF x j >. fl 0 then flowF x j else fl 0) k)) := by
    intro k
    rw [← runSum_scale σ (fun j => rfl), ← runSum_scale τ (fun j => rfl)]
    simp only [flowF_u]; unit_simp
  have h2 : ∀ k, runSum p.toNat (fun j => (if flowF (fun j => inUnit σ τ (x j)) j <. fl 0
      then flowF (fun j => inUnit σ τ (x j)) j else fl 0) *. fl (-1)) k =
      τ.s (σ.s (runSum p.toNat (fun j => (if flowF x j <. fl 0 then flowF x j else fl 0) *. fl (-1)) k)) := by
    intro k
    rw [← runSum_scale σ (fun j => rfl), ← runSum_scale τ (fun j => rfl)]
    simp only [flowF_u]; unit_simp
  simp only [MFI.out, mfiF, h1, h2, safeDiv_both]; cols

/-- Converts the Bollinger lines. -/
def bollIn (s : F → F) (r : Boll.Data F) : Boll.Data F := ⟨r.time, s r.upper, s r.middle, s r.lower, s r.md⟩

theorem boll_u (hq : ∀ a, GoMath.sqrt (σ.s (σ.s a)) = σ.s (GoMath.sqrt a)) (p : Int) (x) (i : Nat) :
    Boll.out p (fun j => inUnit σ τ (x j)) i = bollIn σ.s (Boll.out p x i) := by
  have hS : ∀ i, bollS p.toNat (cl fun j => inUnit σ τ (x j)) i = σ.s (σ.s (bollS p.toNat (cl x) i)) := by
    intro i
    induction i with
    | zero => simp only [bollS, σ.zero]
    | succ i ih => simp only [bollS, ih]; cols; unit_simp
  have hd : ∀ i, dmaF p.toNat (cl fun j => inUnit σ τ (x j)) i = σ.s (dmaF p.toNat (cl x) i) := by
    intro i
    simp only [dmaF, hS, smaF_scale σ (cl_unit (σ := σ) (τ := τ) (x := x))]
    cols; unit_simp; rw [hq]; unit_simp
  simp only [Boll.out, bollIn, hd, smaF_scale σ (cl_unit (σ := σ) (τ := τ) (x := x)), subF_scale]
  cols; unit_simp

theorem bollRule_u (r q : Boll.Data F) (a b : F) :
    Boll.rule (bollIn σ.s r) (bollIn σ.s q) (σ.s a) (σ.s b) = Boll.rule r q a b := by
  simp only [Boll.rule, bollIn]; unit_simp

end math


/-! ## Exact arithmetic -/

section exact
variable {K : Type} [Field K] [LinearOrder K] [IsStrictOrderedRing K] {c e : K}

theorem rescales_of (hc : 0 < c) (he : 0 < e) {I : Indicator (XF K)} {ok} {G} (hy : Yields I ok G) {φ : I.D → I.D}
    (hG : ∀ x i, G (fun j => inUnit (Scaling.ofPos c hc) (Scaling.ofPos e he) (x j)) i = φ (G x i)) :
    Rescales c e I φ :=
  converts_of (σ := Scaling.ofPos c hc) (τ := Scaling.ofPos e he) hy hG

theorem unitFree_of (hc : 0 < c) (he : 0 < e) {I : Strat (XF K)} {ok} {f} (hy : Signals I ok f)
    (hf : ∀ x i, f (fun j => inUnit (Scaling.ofPos c hc) (Scaling.ofPos e he) (x j)) i = f x i) :
    SignalsUnitFree c e I :=
  sameSignals_of (σ := Scaling.ofPos c hc) (τ := Scaling.ofPos e he) hy hf

/-- C55: moving averages, oscillators in price units and price channels are multiplied by the price factor,
for every volume factor. -/
theorem C55_price_lines (hc : 0 < c) (he : 0 < e) :
    (∀ p, Rescales c e (SMA p) fun r => { r with value := times c r.value }) ∧
    (∀ p, Rescales c e (MAi p) fun r => { r with value := times c r.value }) ∧
    (∀ p, Rescales c e (EMA p) fun r => { r with value := times c r.value }) ∧
    (∀ p, Rescales c e (DEMA p) fun r => { r with value := times c r.value }) ∧
    (∀ p, Rescales c e (VWMA p) fun r => { r with value := times c r.value }) ∧
    (∀ a b, Rescales c e (APO a b).toIndicator fun r => { r with value := times c r.value }) ∧
    Rescales c e (Awesome).toIndicator (fun r => { r with value := times c r.value }) ∧
    (∀ a b d, Rescales c e (MACD a b d).toIndicator fun r =>
      ⟨r.time, times c r.dif, times c r.dea, times c r.macd⟩) ∧
    (∀ p, Rescales c e (ATR p) fun r => ⟨r.time, times c r.tr, times c r.atr⟩) ∧
    (∀ a b, Rescales c e (XO a b).toIndicator fun r => ⟨r.time, times c r.fast, times c r.slow⟩) ∧
    (∀ p s1 s2 l1 l2, Rescales c e (Vegas p s1 s2 l1 l2).toIndicator (vegasIn (times c))) ∧
    (∀ a b s, Rescales c e (LRC a b s) (lrcIn (times c))) ∧
    (∀ p, Rescales c e (Donchian p).toIndicator (bandIn (times c))) ∧
    (∀ p, Rescales c e (Keltner p).toIndicator (bandIn (times c))) ∧
    (∀ a b d, Rescales c e (Ichimoku a b d).toIndicator (ichiIn (times c))) ∧
    (∀ p, Rescales c e (Camarilla p) (camIn (times c))) ∧
    (∀ p m, Rescales c e (ST p m true).toIndicator (stIn (times c))) ∧
    (∀ p a f, Rescales c e (PPST p a f).toIndicator (stIn (times c))) ∧
    (∀ p a, Rescales c e (UT p a).toIndicator fun r => ⟨r.time, times c r.close, times c r.value⟩) ∧
    (∀ ps n, Rescales c e (BP ps n) fun r => { r with list := r.list.map (lineIn (times c)) }) :=
  ⟨fun p => rescales_of hc he (SMA.makes p).yields (sma_u p),
    fun p => rescales_of hc he (MAi.appends p).yields (sma_u p),
    fun p => rescales_of hc he (EMA.makes p).yields (ema_u p),
    fun p => rescales_of hc he (DEMA.makes p).yields (dema_u p),
    fun p => rescales_of hc he (VWMA.appends p).yields (vwma_u p),
    fun a b => rescales_of hc he (APO.makes a b).yields (apo_u a b),
    rescales_of hc he Awesome.appends.yields awesome_u,
    fun a b d => rescales_of hc he (MACD.makes a b d).yields (macd_u a b d),
    fun p => rescales_of hc he (ATR.makes p).yields (atr_u p),
    fun a b => rescales_of hc he (XO.makes a b).yields (xo_u a b),
    fun p s1 s2 l1 l2 => rescales_of hc he (Vegas.makes p s1 s2 l1 l2).yields (vegas_u p s1 s2 l1 l2),
    fun a b s => rescales_of hc he (LRC.makes a b s).yields (lrc_u a b s),
    fun p => rescales_of hc he (Donchian.appends p).yields (donchian_u p),
    fun p => rescales_of hc he (Keltner.appends p).yields (keltner_u p),
    fun a b d => rescales_of hc he (Ichimoku.appends a b d).yields (ichi_u a b d),
    fun p => rescales_of hc he (Camarilla.makes p).yields (cam_u p),
    fun p m => rescales_of hc he (ST.makes p m true).yields (st_u p m),
    fun p a f => rescales_of hc he (PPST.makes p a f).yields (ppst_u p a f),
    fun p a => rescales_of hc he (UT.makes p a).yields (ut_u p a),
    fun ps n => rescales_of hc he (BP.makes ps n).yields (bp_u ps n)⟩

/-- C55: percentages and ratios do not depend on the units. -/
theorem C55_ratios (hc : 0 < c) (he : 0 < e) :
    (∀ p, Rescales c e (Stoch (F := XF K) p).toIndicator id) ∧
    (∀ p, Rescales c e (Williams (F := XF K) p).toIndicator id) ∧
    (∀ a b d, Rescales c e (PPO (F := XF K) a b d).toIndicator id) ∧
    (∀ a b, Rescales c e (Projection (F := XF K) a b).toIndicator id) ∧
    (∀ a b, Rescales c e (CCIi (F := XF K) a b).toIndicator id) ∧
    (∀ p, Rescales c e (AiCCI (F := XF K) p).toIndicator id) ∧
    (∀ a b, Rescales c e (ADX (F := XF K) a b) id) ∧
    (∀ p, Rescales c e (Vortex (F := XF K) p) id) ∧
    (∀ a b s d k, Rescales c e (Heat (F := XF K) a b s d k).toIndicator id) ∧
    Rescales c e (Rev (F := XF K)) id ∧
    (∀ p, Rescales c e (CMF (F := XF K) p) id) ∧
    Rescales c e (NVI (F := XF K)) id ∧
    (∀ a b, Rescales c e (VolOsc (F := XF K) a b) id) :=
  ⟨fun p => rescales_of hc he (Stoch.appends p).yields (stoch_u p),
    fun p => rescales_of hc he (Williams.appends p).yields (williams_u p),
    fun a b d => rescales_of hc he (PPO.appends a b d).yields (ppo_u a b d),
    fun a b => rescales_of hc he (Projection.appends a b).yields (proj_u a b),
    fun a b => rescales_of hc he (CCIi.appends a b).yields (cci_u a b),
    fun p => rescales_of hc he (AiCCI.appends p).yields (aicci_u p),
    fun a b => rescales_of hc he (ADX.makes a b).yields (adx_u a b),
    fun p => rescales_of hc he (Vortex.appends p).yields (vortex_u p),
    fun a b s d k => rescales_of hc he (Heat.appends a b s d k).yields (heat_u a b s d k),
    rescales_of hc he Rev.makes.yields rev_u,
    fun p => rescales_of hc he (CMF.appends p).yields (cmf_u p),
    rescales_of hc he NVI.appends.yields nvi_u,
    fun a b => rescales_of hc he (VolOsc.makes a b).yields (volosc_u a b)⟩

/-- C55: cumulative volume lines are multiplied by the volume factor, the force index by both factors. -/
theorem C55_volume_lines (hc : 0 < c) (he : 0 < e) :
    Rescales c e (AD (F := XF K)) (fun r => { r with value := times e r.value }) ∧
    (∀ a b, Rescales c e (Chaikin a b).toIndicator fun r => ⟨r.time, times e r.value, times e r.ad⟩) ∧
    Rescales c e (OBV (F := XF K)) (fun r => { r with value := times e r.value }) ∧
    (∀ p, Rescales c e (VPT p) fun r => { r with value := times e r.value }) ∧
    (∀ p, Rescales c e (Force p) fun r => { r with value := times e (times c r.value) }) :=
  ⟨rescales_of hc he AD.appends.yields ad_u,
    fun a b => rescales_of hc he (Chaikin.appends a b).yields (chaikin_u a b),
    rescales_of hc he OBV.grows.yields obv_u,
    fun p => rescales_of hc he (VPT.appends p).yields (vpt_u p),
    fun p => rescales_of hc he (Force.appends p).yields (force_u p)⟩

/-- C55: the signals of the crossing and channel strategies do not depend on the units. -/
theorem C55_signals (hc : 0 < c) (he : 0 < e) :
    (∀ a b, SignalsUnitFree c e (APO (F := XF K) a b)) ∧
    SignalsUnitFree c e (Awesome (F := XF K)) ∧
    (∀ a b, SignalsUnitFree c e (Chaikin (F := XF K) a b)) ∧
    (∀ a b d, SignalsUnitFree c e (PPO (F := XF K) a b d)) ∧
    (∀ p, SignalsUnitFree c e (Stoch (F := XF K) p)) ∧
    (∀ p, SignalsUnitFree c e (Williams (F := XF K) p)) ∧
    (∀ a b, SignalsUnitFree c e (Projection (F := XF K) a b)) ∧
    (∀ a b d, SignalsUnitFree c e (MACD (F := XF K) a b d)) ∧
    (∀ a b, SignalsUnitFree c e (CCIi (F := XF K) a b)) ∧
    (∀ p, SignalsUnitFree c e (AiCCI (F := XF K) p)) ∧
    (∀ a b s d k, SignalsUnitFree c e (Heat (F := XF K) a b s d k)) ∧
    (∀ p m, SignalsUnitFree c e (ST (F := XF K) p m true)) ∧
    (∀ p a f, SignalsUnitFree c e (PPST (F := XF K) p a f)) ∧
    (∀ p a, SignalsUnitFree c e (UT (F := XF K) p a)) ∧
    (∀ p, SignalsUnitFree c e (Donchian (F := XF K) p)) ∧
    (∀ p, SignalsUnitFree c e (Keltner (F := XF K) p)) ∧
    (∀ a b d, SignalsUnitFree c e (Ichimoku (F := XF K) a b d)) ∧
    (∀ p s1 s2 l1 l2, SignalsUnitFree c e (Vegas (F := XF K) p s1 s2 l1 l2)) ∧
    (∀ a b, SignalsUnitFree c e (XO (F := XF K) a b)) :=
  ⟨fun a b => unitFree_of hc he (APO.signals a b) fun x i => pairSide_congr (apo_u a b x) zeroRule_u i,
    unitFree_of hc he Awesome.signals fun x i => pairSide_congr (awesome_u x) zeroRule_u i,
    fun a b => unitFree_of hc he (Chaikin.signals a b) fun x i => pairSide_congr (φ := fun r =>
      ⟨r.time, times e r.value, times e r.ad⟩) (chaikin_u a b x) (fun r q => chaikinRule_u (τ := Scaling.ofPos e he) r q) i,
    fun a b d => unitFree_of hc he (PPO.signals a b d) fun x i => pairSide_congr (ppo_u a b d x) (φ := id) (fun _ _ => rfl) i,
    fun p => unitFree_of hc he (Stoch.signals p) fun x i => pairSide_congr (stoch_u p x) (φ := id) (fun _ _ => rfl) i,
    fun p => unitFree_of hc he (Williams.signals p) fun x i => pairSide_congr (williams_u p x) (φ := id) (fun _ _ => rfl) i,
    fun a b => unitFree_of hc he (Projection.signals a b) fun x i => pairSide_congr (proj_u a b x) (φ := id) (fun _ _ => rfl) i,
    fun a b d => unitFree_of hc he (MACD.signals a b d) fun x i => pairSide_congr (φ := fun r =>
      ⟨r.time, times c r.dif, times c r.dea, times c r.macd⟩) (macd_u a b d x)
      (fun r q => macdRule_u (σ := Scaling.ofPos c hc) r q) i,
    fun a b => unitFree_of hc he (CCIi.signals a b) fun x i => pairSide_congr (cci_u a b x) (φ := id) (fun _ _ => rfl) i,
    fun p => unitFree_of hc he (AiCCI.signals p) fun x i => pairSide_congr (aicci_u p x) (φ := id) (fun _ _ => rfl) i,
    fun a b s d k => unitFree_of hc he (Heat.signals a b s d k) fun x i =>
      pairSide_congr (heat_u a b s d k x) (φ := id) (fun _ _ => rfl) i,
    fun p m => unitFree_of hc he (ST.signals p m true) fun x i => pairSide_congr (st_u p m x) stRule_u i,
    fun p a f => unitFree_of hc he (PPST.signals p a f) fun x i => pairSide_congr (ppst_u p a f x) stRule_u i,
    fun p a => unitFree_of hc he (UT.signals p a) fun x i => pairSide_congr (φ := fun r =>
      ⟨r.time, times c r.close, times c r.value⟩) (ut_u p a x) (fun r q => utRule_u (σ := Scaling.ofPos c hc) r q) i,
    fun p => unitFree_of hc he (Donchian.signals p) fun x i => closeSide_congr (donchian_u p x) cl_unit bandRule_u i,
    fun p => unitFree_of hc he (Keltner.signals p) fun x i => closeSide_congr (keltner_u p x) cl_unit bandRule_u i,
    fun a b d => unitFree_of hc he (Ichimoku.signals a b d) (ichiSide_u a b d),
    fun p s1 s2 l1 l2 => unitFree_of hc he (Vegas.signals p s1 s2 l1 l2) (vegasSide_u p s1 s2 l1 l2),
    fun a b => unitFree_of hc he (XO.signals a b) fun x i => by rw [xoF_u]⟩

/-! ### `Rma` (its records follow as many zero records) -/

/-- C55 for `Rma`: every value is multiplied by the price factor. -/
theorem C55_rma (hc : 0 < c) (he : 0 < e) (p : Int) :
    Rescales c e (RMA p) fun r => { r with value := times c r.value } := by
  intro it
  obtain ⟨x, hx⟩ := candles_tab it
  have hx' : (rescale c e it).candles =
      tab it.candles.length fun j => inUnit (Scaling.ofPos c hc) (Scaling.ofPos e he) (x j) := by
    conv_lhs => rw [rescale, hx]
    simp only [tab, List.map_map]; rfl
  have e1 : (RMA p).data it = .ok (List.replicate it.candles.length Rec.zero ++ tab it.candles.length (RMA.out p x)) :=
    by
    simp [Indicator.data, Indicator.new, Obj.GetData, Obj.read, Obj.ensure, Obj.Calculation, RMA.run p hx []]
  have e2 : (RMA p).data (rescale c e it) = .ok (List.replicate it.candles.length Rec.zero ++
      tab it.candles.length (RMA.out p fun j => inUnit (Scaling.ofPos c hc) (Scaling.ofPos e he) (x j))) :=
    by
    simp [Indicator.data, Indicator.new, Obj.GetData, Obj.read, Obj.ensure, Obj.Calculation, RMA.run p hx' []]
  have hz : times c (fl 0 : XF K) = fl 0 := (Scaling.ofPos c hc).zero
  have hr : ∀ i, rmaF p (cl fun j => inUnit (Scaling.ofPos c hc) (Scaling.ofPos e he) (x j)) i = times c (rmaF p (cl x) i) :=
    rmaF_scale (Scaling.ofPos c hc) cl_unit p
  rw [e1, e2]
  simp only [Except.toOption, Option.map_some, List.map_append, List.map_replicate, Rec.zero, hz, tab, List.map_map]
  congr 2
  exact List.map_congr_left fun i _ => by simp only [RMA.out, hr, Function.comp]; rfl

/-! ### Ease of movement -/

theorem times_times (a b : K) (v : XF K) : times a (times b v) = times (a * b) v := by
  cases v <;> simp only [times, mul_assoc]

theorem div_times {k : K} (hk : 0 < k) (a b : XF K) : a /. times k b = times k⁻¹ (a /. b) := by
  have hi : 0 < k⁻¹ := inv_pos.mpr hk
  cases b with
  | fin b =>
    cases a with
    | fin a =>
      simp only [times, div_fin_eq]
      by_cases hb : b = 0
      · subst hb
        simp only [mul_zero, if_pos]
        unfold infSign
        split_ifs <;> rfl
      · rw [if_neg (mul_ne_zero hk.ne' hb), if_neg hb]
        simp only [times]; congr 1; field_simp
    | nan => rfl
    | pinf =>
      show (if k * b < 0 then ninf else pinf) = times k⁻¹ (if b < 0 then ninf else pinf)
      by_cases hb : b < 0
      · rw [if_pos hb, if_pos (mul_neg_of_pos_of_neg hk hb)]; rfl
      · rw [if_neg hb, if_neg (not_lt.mpr (mul_nonneg hk.le (not_lt.mp hb)))]; rfl
    | ninf =>
      show (if k * b < 0 then pinf else ninf) = times k⁻¹ (if b < 0 then pinf else ninf)
      by_cases hb : b < 0
      · rw [if_pos hb, if_pos (mul_neg_of_pos_of_neg hk hb)]; rfl
      · rw [if_neg hb, if_neg (not_lt.mpr (mul_nonneg hk.le (not_lt.mp hb)))]; rfl
  | nan => cases a <;> rfl
  | pinf =>
    cases a with
    | fin a => show XF.fin 0 = XF.fin (k⁻¹ * 0); rw [mul_zero]
    | _ => rfl
  | ninf =>
    cases a with
    | fin a => show XF.fin 0 = XF.fin (k⁻¹ * 0); rw [mul_zero]
    | _ => rfl

theorem safeDiv_times {k : K} (hk : 0 < k) (a b : XF K) : safeDiv a (times k b) = times k⁻¹ (safeDiv a b) := by
  have hi : 0 < k⁻¹ := inv_pos.mpr hk
  rw [safeDiv, safeDiv, div_times hk]
  show (if isNaN ((Scaling.ofPos _ hi).s (a /. b)) || isInf ((Scaling.ofPos _ hi).s (a /. b)) then fl 0
    else (Scaling.ofPos _ hi).s (a /. b)) = (Scaling.ofPos _ hi).s _
  unit_simp

/-- C55 for `EaseOfMovement`: the value is multiplied by the square of the price factor over the volume factor. -/
theorem C55_ease (hc : 0 < c) (he : 0 < e) (p : Int) :
    Rescales c e (EMV p) fun r => { r with value := times (c * c / e) r.value } := by
  have hk : 0 < c * c / e := div_pos (mul_pos hc hc) he
  refine rescales_of hc he (EMV.appends p).yields fun x i => ?_
  set σ := Scaling.ofPos c hc with hσ
  set τ := Scaling.ofPos e he with hτ
  have hm : ∀ j, midF (fun j => inUnit σ τ (x j)) j = σ.s (midF x j) := by
    intro j; simp only [midF, hi_unit, lo_unit]; unit_simp
  have h1 : ∀ j, emv1 (fun j => inUnit σ τ (x j)) j = (Scaling.ofPos _ hk).s (emv1 x j) := by
    intro j
    simp only [emv1, hm, shiftF_scale σ hm σ.zero.symm, subF_scale, hi_unit, lo_unit, vo_unit, τ.mul_left]
    rw [safeDiv_left, safeDiv_left]
    show times c (safeDiv _ (times e (safeDiv _ (times c _)))) = times (c * c / e) _
    rw [safeDiv_times hc, safeDiv_times he, safeDiv_times (inv_pos.mpr hc), times_times, times_times]
    congr 1
    rw [inv_inv]; ring
  simp only [EMV.out, smaF_scale (Scaling.ofPos _ hk) h1, ti_unit]
  rfl

end exact

/-! ## Where the price unit does matter -/

/-- C55 for `Rsi`, while the cut-off at `1e-14` (trend/Rsi.go:143-148 and 184-189) falls the same way in both
units: the average movement `G + L` of each candle is below it in one unit exactly when it is below it in the
other. Missing: the other series, see `C55_rsi_refuted`. -/
theorem C55_rsi_partial {K : Type} [Field K] [LinearOrder K] [IsStrictOrderedRing K] {c e : K} (hc : 0 < c)
    (he : 0 < e) (p : Int) {it : Item (XF K)} {bs : List (Bar K)} (hb : Holds it bs)
    (hcut : ∀ m, p.toNat + m < bs.length →
      (wilderAvg p.toNat (gain bs) m + wilderAvg p.toNat (loss bs) m < 1 / 100000000000000 ↔
        c * (wilderAvg p.toNat (gain bs) m + wilderAvg p.toNat (loss bs) m) < 1 / 100000000000000)) :
    ((RSI p).data (rescale c e it)).toOption = ((RSI p).data it).toOption := by
  obtain ⟨x, b, hx, hbs, hC⟩ := hb.cols
  have hx' : (rescale c e it).candles =
      tab bs.length fun j => inUnit (Scaling.ofPos c hc) (Scaling.ofPos e he) (x j) := by
    conv_lhs => rw [rescale, hx]
    simp only [tab, List.map_map]; rfl
  have hy := (RSI.appends (F := XF K) p).yields
  by_cases hok : okRsi p bs.length
  · rw [(hy _ _ _ hx).1 hok, (hy _ _ _ hx').1 hok]
    refine congrArg some (tab_ext fun i hi => ?_)
    simp only [RSI.out, ti_unit]
    congr 1
    rw [rsiF, rsiF]
    by_cases hw : p.toNat < 2 ∨ i < p.toNat
    · rw [if_pos hw, if_pos hw]
    rw [if_neg hw, if_neg hw]
    push Not at hw
    rw [rsiW_scale (Scaling.ofPos c hc) cl_unit, hC.cl, rsiW_fin (by omega)]
    have hg : 0 ≤ wilderAvg p.toNat (fun j => max ((b j).c - (b (j - 1)).c) 0) (i - p.toNat) :=
      wilderAvg_nonneg (by omega) (fun _ => le_max_right _ _) _
    have hl : 0 ≤ wilderAvg p.toNat (fun j => max ((b (j - 1)).c - (b j).c) 0) (i - p.toNat) :=
      wilderAvg_nonneg (by omega) (fun _ => le_max_right _ _) _
    have h := hcut (i - p.toNat) (by omega)
    rw [hbs] at h
    rw [wilderAvg_congr (g' := fun j => max ((b j).c - (b (j - 1)).c) 0) fun j h1 h2 => gain_tab b h1 (by omega),
      wilderAvg_congr (g' := fun j => max ((b (j - 1)).c - (b j).c) 0) fun j h1 h2 => loss_tab b h1 (by omega)] at h
    generalize wilderAvg p.toNat (fun j => max ((b j).c - (b (j - 1)).c) 0) (i - p.toNat) = g at *
    generalize wilderAvg p.toNat (fun j => max ((b (j - 1)).c - (b j).c) 0) (i - p.toNat) = l at *
    show rsiVal (XF.fin (c * g), XF.fin (c * l)) = _
    rw [rsiVal_fin (mul_nonneg hc.le hg) (mul_nonneg hc.le hl), rsiVal_fin hg hl, ← mul_add]
    congr 1
    by_cases h0 : g + l < 1 / 100000000000000
    · rw [if_pos h0, if_pos (h.mp h0)]
    · rw [if_neg h0, if_neg (mt h.mpr h0), mul_div_mul_left _ _ hc.ne']
  · obtain ⟨q, hq⟩ := (hy _ _ _ hx).2 hok
    obtain ⟨q', hq'⟩ := (hy _ _ _ hx').2 hok
    rw [hq, hq']; rfl

/-- C55 fails for `Rsi`: quoted in a unit in which the price is small enough, the index drops to 0. -/
theorem C55_rsi_refuted : ∃ (c : ℚ) (it : Item (XF ℚ)), 0 < c ∧
    ((RSI 2).data (rescale c 1 it)).toOption ≠ ((RSI 2).data it).toOption := by
  refine ⟨1 / 10 ^ 16, barItem [⟨1, 1, 1, 1, 0⟩, ⟨2, 2, 2, 2, 0⟩, ⟨3, 3, 3, 3, 0⟩], by norm_num, ?_⟩
  decide +kernel

theorem candleTime_rescale {K : Type} [Field K] [LinearOrder K] (c e : K) (it : Item (XF K)) (i : Int) :
    candleTime (rescale c e it) i = candleTime it i := by
  unfold candleTime idx rescale
  by_cases h : 0 ≤ i
  · rw [if_pos h, if_pos h, List.getElem?_map]
    cases it.candles[i.toNat]? <;> rfl
  · rw [if_neg h, if_neg h]

theorem length_rescale {K : Type} [Field K] [LinearOrder K] (c e : K) (it : Item (XF K)) :
    (rescale c e it).candles.length = it.candles.length := by simp [rescale]

/-- A reading method that gives the same for both sources gives the same when the records are the same. -/
theorem get_toOption {F R : Type} {I : Indicator F} (r : I.S → List I.D → Go R) {it it' : Item F} {s s' : I.S}
    (hs : I.source it = .ok s) (hs' : I.source it' = .ok s') (hr : ∀ d, r s' d = r s d)
    (h : (I.data it').toOption = (I.data it).toOption) : (I.get r it').toOption = (I.get r it).toOption := by
  cases hd : I.data it with
  | ok d =>
    cases hd' : I.data it' with
    | ok d' =>
      rw [hd, hd'] at h
      cases h
      rw [Indicator.get_of_data hs hd, Indicator.get_of_data hs' hd', hr]
    | error q => rw [hd, hd'] at h; cases h
  | error p =>
    cases hd' : I.data it' with
    | ok d' => rw [hd, hd'] at h; cases h
    | error q => rw [Indicator.get_of_error hd, Indicator.get_of_error hd']; rfl

/-- C55 for the signals of `Rsi` and for `StochRsi`, which is computed from it, under the condition of
`C55_rsi_partial`. Missing: the other series, see `C55_stochrsi_refuted`. -/
theorem C55_stochrsi_partial {K : Type} [Field K] [LinearOrder K] [IsStrictOrderedRing K] {c e : K} (hc : 0 < c)
    (he : 0 < e) (p : Int) {it : Item (XF K)} {bs : List (Bar K)} (hb : Holds it bs)
    (hcut : ∀ m, p.toNat + m < bs.length →
      (wilderAvg p.toNat (gain bs) m + wilderAvg p.toNat (loss bs) m < 1 / 100000000000000 ↔
        c * (wilderAvg p.toNat (gain bs) m + wilderAvg p.toNat (loss bs) m) < 1 / 100000000000000)) :
    ((RSI p).signals (rescale c e it)).toOption = ((RSI p).signals it).toOption ∧
    ∀ k d l, ((StochRSI k d p l).data (rescale c e it)).toOption = ((StochRSI k d p l).data it).toOption ∧
      ((StochRSI k d p l).signals (rescale c e it)).toOption = ((StochRSI k d p l).signals it).toOption := by
  have hd := C55_rsi_partial hc he p hb hcut
  have hv : (RSI.GetValue p (rescale c e it)).toOption = (RSI.GetValue p it).toOption :=
    get_toOption (I := (RSI p).toIndicator) _ rfl rfl (fun d => rfl) hd
  refine ⟨get_toOption (I := (RSI p).toIndicator) _ rfl rfl (fun d => ?_) hd, fun k d l => ?_⟩
  · show RSI.sides _ d = RSI.sides _ d
    rw [RSI.sides, RSI.sides, length_rescale]
  · have h1 : ∀ data, (StochRSI.Calculation k d p l (rescale c e it) data).toOption =
        (StochRSI.Calculation k d p l it data).toOption := by
      intro data
      unfold StochRSI.Calculation
      cases hr : RSI.GetValue p it with
      | ok v =>
        cases hr' : RSI.GetValue p (rescale c e it) with
        | ok v' =>
          rw [hr, hr'] at hv
          cases hv
          simp only [ok_bind, candleTime_rescale]
        | error q => rw [hr, hr'] at hv; cases hv
      | error q =>
        cases hr' : RSI.GetValue p (rescale c e it) with
        | ok v' => rw [hr, hr'] at hv; cases hv
        | error q' => rfl
    have h2 : ((StochRSI k d p l).data (rescale c e it)).toOption = ((StochRSI k d p l).data it).toOption := by
      have hd : ∀ it' : Item (XF K), (StochRSI k d p l).data it' = StochRSI.Calculation k d p l it' [] := fun it' => by
        show _ = (StochRSI k d p l).compute it' []
        simp only [Indicator.data, Indicator.new, Obj.GetData, Obj.read, Obj.ensure, Obj.Calculation, pure_eq_ok, ok_bind,
          List.length_nil, if_true]
        cases StochRSI.Calculation k d p l it' [] <;> rfl
      rw [hd, hd, h1]
    refine ⟨h2, get_toOption (I := (StochRSI k d p l).toIndicator) _ rfl rfl (fun dd => ?_) h2⟩
    show KD.sides _ dd = KD.sides _ dd
    rw [KD.sides, KD.sides, length_rescale]

/-- C55 fails for `StochRsi` as it does for `Rsi`. -/
theorem C55_stochrsi_refuted : ∃ (c : ℚ) (it : Item (XF ℚ)), 0 < c ∧
    ((StochRSI 1 1 2 2).data (rescale c 1 it)).toOption ≠ ((StochRSI 1 1 2 2).data it).toOption := by
  refine ⟨1 / 10 ^ 16, barItem [⟨1, 1, 1, 1, 0⟩, ⟨2, 2, 2, 2, 0⟩, ⟨3, 3, 3, 3, 0⟩], by norm_num, ?_⟩
  decide +kernel
/-- C55 for `Kdj`, when the high and the low of every candle are at least `1e-6` apart in both units (the cut-off
of trend/Kdj.go). Missing: the other series, see `C55_kdj_refuted`. -/
theorem C55_kdj_partial {K : Type} [Field K] [LinearOrder K] [IsStrictOrderedRing K] {c e : K} (hc : 0 < c)
    (he : 0 < e) (p : Int) {it : Item (XF K)} {bs : List (Bar K)} (hb : Holds it bs)
    (hcut : ∀ b ∈ bs, 1 / 1000000 ≤ b.h - b.l ∧ 1 / 1000000 ≤ c * (b.h - b.l)) :
    ((KDJ p).data (rescale c e it)).toOption = ((KDJ p).data it).toOption ∧
    ((KDJ p).signals (rescale c e it)).toOption = ((KDJ p).signals it).toOption := by
  obtain ⟨x, b, hx, hbs, hC⟩ := hb.cols
  set σ := Scaling.ofPos c hc
  set τ := Scaling.ofPos e he
  have hx' : (rescale c e it).candles = tab bs.length fun j => inUnit σ τ (x j) := by
    conv_lhs => rw [rescale, hx]
    simp only [tab, List.map_map]; rfl
  have hr : ∀ i, i < bs.length → rsvF p (fun j => inUnit σ τ (x j)) i = rsvF p x i := by
    intro i hi
    rw [rsvF, rsvF]
    by_cases hf : kdjFull p i = true
    · rw [if_pos hf, if_pos hf]
      simp only [kdjFull, Bool.and_eq_true, decide_eq_true_eq] at hf
      simp only [lowF_scale σ (lo_unit (σ := σ) (τ := τ) (x := x)), highF_scale σ (hi_unit (σ := σ) (τ := τ) (x := x))]
      rw [hC.hi, hC.lo, cl_unit]
      obtain ⟨H, eH, hH⟩ := highF_fin (fun j => (b j).h) (i + 1 - p.toNat) (p.toNat - 1)
      obtain ⟨L, eL, hL⟩ := lowF_fin (fun j => (b j).l) (i + 1 - p.toNat) (p.toNat - 1)
      have h1 : (b i).h ≤ H := hH.2 ⟨i, by omega, by omega, rfl⟩
      have h2 : L ≤ (b i).l := hL.2 ⟨i, by omega, by omega, rfl⟩
      have hm := hcut (b i) (by rw [hbs]; exact List.mem_map.mpr ⟨i, List.mem_range.mpr hi, rfl⟩)
      have h3 : c * ((b i).h - (b i).l) ≤ c * (H - L) := mul_le_mul_of_nonneg_left (by linarith) hc.le
      rw [eH, eL]
      unit_simp
      have e1 : (XF.fin H -. XF.fin L <. GoFloat.lit (1 / 1000000)) = false := by
        simp only [sub_fin, lit_fin, lt_fin, decide_eq_false_iff_not, not_lt]
        push_cast; linarith [hm.1]
      have e2 : (σ.s (XF.fin H -. XF.fin L) <. GoFloat.lit (1 / 1000000)) = false := by
        have e3 : σ.s (XF.fin H -. XF.fin L) = XF.fin (c * (H - L)) := by rw [sub_fin]; rfl
        simp only [e3, lit_fin, lt_fin, decide_eq_false_iff_not, not_lt]
        push_cast; linarith [hm.2]
      rw [e1, e2]
    · rw [if_neg hf, if_neg hf]
  have hk : ∀ i, i < bs.length → kF p (fun j => inUnit σ τ (x j)) i = kF p x i := by
    intro i
    induction i with
    | zero => exact fun _ => rfl
    | succ i ih => intro hi; rw [kF, kF, ih (by omega), hr _ hi]
  have hd : ∀ i, i < bs.length → dF p (fun j => inUnit σ τ (x j)) i = dF p x i := by
    intro i
    induction i with
    | zero => exact fun _ => rfl
    | succ i ih => intro hi; rw [dF, dF, ih (by omega), hk _ hi]
  have ho : ∀ i, i < bs.length → KDJ.out p (fun j => inUnit σ τ (x j)) i = KDJ.out p x i := by
    intro i hi; simp only [KDJ.out, hr i hi, hk i hi, hd i hi, ti_unit]
  have hy := (KDJ.makes (F := XF K) p).yields
  have hs := KDJ.signals (F := XF K) p
  by_cases hok : okKdj p bs.length
  · rw [(hy _ _ _ hx).1 hok, (hy _ _ _ hx').1 hok, (hs _ _ _ hx).1 hok, (hs _ _ _ hx').1 hok]
    refine ⟨congrArg some (tab_ext ho), congrArg some (tab_ext fun i hi => ?_)⟩
    cases i with
    | zero => rfl
    | succ i =>
      show KDJ.rule (KDJ.out p _ i) (KDJ.out p _ (i + 1)) = KDJ.rule _ _
      rw [ho _ hi, ho _ (by omega)]
  · obtain ⟨q, hq⟩ := (hy _ _ _ hx).2 hok
    obtain ⟨q', hq'⟩ := (hy _ _ _ hx').2 hok
    obtain ⟨w, hw⟩ := (hs _ _ _ hx).2 hok
    obtain ⟨w', hw'⟩ := (hs _ _ _ hx').2 hok
    rw [hq, hq', hw, hw']; exact ⟨rfl, rfl⟩

/-- C55 fails for `Kdj`: quoted in a unit in which the price is small, `RSV` becomes 100. -/
theorem C55_kdj_refuted : ∃ (c : ℚ) (it : Item (XF ℚ)), 0 < c ∧
    ((KDJ 2).data (rescale c 1 it)).toOption ≠ ((KDJ 2).data it).toOption := by
  refine ⟨1 / 10 ^ 8, barItem [⟨1, 2, 1, 1, 0⟩, ⟨2, 3, 1, 1, 0⟩], by norm_num, ?_⟩
  decide +kernel

/-- C55 fails for `SuperTrend` with `changeATR = false`: the band is the ATR as a percentage of the price, added to
a price. -/
theorem C55_supertrend_refuted : ∃ (c : ℚ) (it : Item (XF ℚ)), 0 < c ∧
    ((ST 2 1 false).data (rescale c 1 it)).toOption ≠
      ((ST 2 1 false).data it).toOption.map (List.map (stIn (times c))) := by
  refine ⟨10, barItem [⟨100, 101, 99, 100, 0⟩, ⟨100, 102, 99, 101, 0⟩, ⟨101, 103, 100, 102, 0⟩,
    ⟨102, 104, 101, 103, 0⟩, ⟨103, 105, 102, 104, 0⟩], by norm_num, ?_⟩
  decide +kernel

/-- The conversion changes the series, and the results are not empty. -/
example : (rescale 100 1 (barItem [⟨1, 2, 1, (3 / 2 : ℚ), 5⟩])).candles.map (·.close) = [.fin 150] ∧
    (((EMA 2).data (rescale 100 1 (barItem [⟨1, 2, 1, (1 : ℚ), 5⟩, ⟨1, 4, 1, 4, 5⟩]))).toOption.map
      (List.map (·.value))) = some [.fin 100, .fin 300] ∧
    (((EMA 2).data (barItem [⟨1, 2, 1, (1 : ℚ), 5⟩, ⟨1, 4, 1, 4, 5⟩])).toOption.map
      (List.map (·.value))) = some [.fin 1, .fin 3] := by
  decide +kernel

/-- A series that meets the hypothesis of `C55_rsi_partial` and `C55_stochrsi_partial`. -/
example : ∀ m, 2 + m < 3 →
    (wilderAvg 2 (gain [⟨1, 1, 1, (1 : ℚ), 0⟩, ⟨2, 2, 2, 2, 0⟩, ⟨3, 3, 3, 3, 0⟩]) m +
      wilderAvg 2 (loss [⟨1, 1, 1, (1 : ℚ), 0⟩, ⟨2, 2, 2, 2, 0⟩, ⟨3, 3, 3, 3, 0⟩]) m < 1 / 100000000000000 ↔
      100 * (wilderAvg 2 (gain [⟨1, 1, 1, (1 : ℚ), 0⟩, ⟨2, 2, 2, 2, 0⟩, ⟨3, 3, 3, 3, 0⟩]) m +
        wilderAvg 2 (loss [⟨1, 1, 1, (1 : ℚ), 0⟩, ⟨2, 2, 2, 2, 0⟩, ⟨3, 3, 3, 3, 0⟩]) m) < 1 / 100000000000000) := by
  intro m hm
  obtain rfl : m = 0 := by omega
  norm_num [wilderAvg, gain, loss, Finset.sum_range_succ]

/-- A series that meets the hypothesis of `C55_kdj_partial`. -/
example : ∀ b ∈ [(⟨1, 2, 1, 1, 0⟩ : Bar ℚ), ⟨2, 3, 1, 1, 0⟩],
    1 / 1000000 ≤ b.h - b.l ∧ 1 / 1000000 ≤ 100 * (b.h - b.l) := by
  decide +kernel

section real
variable {c e : ℝ}

theorem sqrt_times (hc : 0 < c) (a : XF ℝ) : GoMath.sqrt (times c (times c a)) = times c (GoMath.sqrt a) := by
  cases a with
  | fin a =>
    show sqrtR (.fin (c * (c * a))) = times c (sqrtR (.fin a))
    simp only [sqrtR]
    by_cases h : a < 0
    · rw [if_pos h, if_pos (by nlinarith [mul_pos hc hc])]; rfl
    · rw [if_neg h, if_neg (not_lt.mpr (mul_nonneg hc.le (mul_nonneg hc.le (not_lt.mp h))))]
      show _ = XF.fin (c * _)
      rw [← mul_assoc, Real.sqrt_mul (mul_nonneg hc.le hc.le), Real.sqrt_mul_self hc.le]
  | _ => rfl

/-- C55 for the indicators with square roots and powers, over the real numbers. -/
theorem C55_real (hc : 0 < c) (he : 0 < e) :
    (∀ p k, Rescales c e (Boll (F := XF ℝ) p k).toIndicator (bollIn (times c))) ∧
    (∀ p, Rescales c e (Ulcer (F := XF ℝ) p) id) ∧
    (∀ p, Rescales c e (MFI (F := XF ℝ) p).toIndicator id) ∧
    (∀ p k, SignalsUnitFree c e (Boll (F := XF ℝ) p k)) ∧
    (∀ p, SignalsUnitFree c e (MFI (F := XF ℝ) p)) :=
  ⟨fun p k => rescales_of hc he (Boll.makes p k).yields (boll_u (sqrt_times hc) p),
    fun p => rescales_of hc he (Ulcer.appends p).yields (ulcer_u p),
    fun p => rescales_of hc he (MFI.appends p).yields (mfi_u p),
    fun p k => unitFree_of hc he (Boll.signals p k) fun x i =>
      closeSide_congr (boll_u (sqrt_times hc) p x) cl_unit bollRule_u i,
    fun p => unitFree_of hc he (MFI.signals p) fun x i => pairSide_congr (mfi_u p x) (φ := id) (fun _ _ => rfl) i⟩

end real

end Verif.Props
