import Verif.Ind.Osc
import Verif.Ind.Trend3
import Verif.Ind.Channel

/-!
# Closed forms of `AnalysisSide`

For every strategy: the side of one candle as a function of the candle series, and the proof that
`New...(item).AnalysisSide()` computes exactly these sides, or panics exactly where `GetData` does.
-/

set_option linter.unusedSectionVars false

namespace Verif.Ind
open Verif Verif.Klines Verif.Ta GoFloat

variable {F : Type}

section
variable [GoFloat F]

/-- `New...(item).AnalysisSide()` yields one side per candle, `f x i` at candle `i`, where `ok n` holds; it
panics elsewhere. -/
def Signals (I : Strat F) (ok : Nat → Prop) (f : (Nat → Candle F) → Nat → Side) : Prop :=
  ∀ (it : Item F) (n : Nat) (x : Nat → Candle F), it.candles = tab n x →
    (ok n → I.signals it = .ok (tab n (f x))) ∧ (¬ ok n → ∃ p, I.signals it = .error p)

theorem yields_inv {I : Indicator F} {ok} {G} (h : Yields I ok G) {it : Item F} {n : Nat}
    {x : Nat → Candle F} (hx : it.candles = tab n x) {d : List I.D} (hd : I.data it = .ok d) :
    ok n ∧ d = tab n (G x) := by
  by_cases hok : ok n
  · have := (h it n x hx).1 hok
    rw [hd] at this
    exact ⟨hok, Except.ok.inj this⟩
  · obtain ⟨p, hp⟩ := (h it n x hx).2 hok
    rw [hd] at hp; cases hp

theorem signals_inv {I : Strat F} {ok} {f} (h : Signals I ok f) {it : Item F} {n : Nat}
    {x : Nat → Candle F} (hx : it.candles = tab n x) {s : List Side} (hs : I.signals it = .ok s) :
    ok n ∧ s = tab n (f x) := by
  by_cases hok : ok n
  · have := (h it n x hx).1 hok
    rw [hs] at this
    exact ⟨hok, Except.ok.inj this⟩
  · obtain ⟨p, hp⟩ := (h it n x hx).2 hok
    rw [hs] at hp; cases hp

theorem candles_tab (it : Item F) : ∃ x, it.candles = tab it.candles.length x := exists_tabC it.candles

theorem signals_of {I : Strat F} {ok} {G} {f : (Nat → Candle F) → Nat → Side} (hy : Yields I.toIndicator ok G)
    (hs : ∀ (it : Item F) n x, it.candles = tab n x → ∃ s, I.source it = .ok s ∧
      (ok n → I.sides s (tab n (G x)) = .ok (tab n (f x)))) : Signals I ok f := by
  intro it n x hx
  obtain ⟨s, h1, h2⟩ := hs it n x hx
  refine ⟨fun hok => ?_, fun hok => ?_⟩
  · rw [Strat.signals_eq, Indicator.get_of_data h1 ((hy it n x hx).1 hok), h2 hok]
  · obtain ⟨p, hp⟩ := (hy it n x hx).2 hok
    exact ⟨p, by rw [Strat.signals_eq, Indicator.get_of_error hp]⟩

/-- The side of a candle from its record and the previous one; candle 0 keeps the zero value, `Buy`. -/
def pairSide {D : Type} (rule : D → D → Side) (g : Nat → D) : Nat → Side
  | 0 => Buy
  | k + 1 => rule (g k) (g (k + 1))

theorem sideLoop_pair {D : Type} {n : Nat} {g : Nat → D} (rule : D → D → Side) :
    sideLoop n 1 (tab n g) (fun _ prev v => pure (rule prev v)) = .ok (tab n (pairSide rule g)) :=
  sideLoop_tab _ (fun _ _ => rfl) rfl

theorem signals_pair {I : Strat F} {ok} {G} (rule : I.D → I.D → Side) (hy : Yields I.toIndicator ok G)
    (hs : ∀ (it : Item F) n x, it.candles = tab n x → ∃ s, I.source it = .ok s ∧
      I.sides s (tab n (G x)) = sideLoop n 1 (tab n (G x)) (fun _ prev v => pure (rule prev v))) :
    Signals I ok (fun x => pairSide rule (G x)) :=
  signals_of hy fun it n x hx => by
    obtain ⟨s, h1, h2⟩ := hs it n x hx
    exact ⟨s, h1, fun _ => by rw [h2, sideLoop_pair]⟩

theorem len_of {it : Item F} {n : Nat} {x : Nat → Candle F} (hx : it.candles = tab n x) :
    it.candles.length = n := by rw [hx, tab_length]

/-! ## Rules on records -/

/-- A line of the record crosses zero. -/
def zeroRule (prev v : Rec F) : Side := crossRule v.value (fl 0) prev.value (fl 0)

theorem APO.signals (fastP slowP : Int) :
    Signals (APO (F := F) fastP slowP) (fun _ => True) (fun x => pairSide zeroRule (APO.out fastP slowP x)) :=
  signals_pair (I := APO fastP slowP) zeroRule (APO.makes fastP slowP).yields fun it n x hx =>
    ⟨it, rfl, by simp only [zeroSides, len_of hx]; rfl⟩

theorem Awesome.signals :
    Signals (Awesome (F := F)) (fun _ => True) (fun x => pairSide zeroRule (Awesome.out x)) :=
  signals_pair (I := Awesome) zeroRule Awesome.appends.yields fun it n x hx =>
    ⟨it, rfl, by simp only [zeroSides, len_of hx]; rfl⟩

/-- The rule of `ChaikinOscillator`. -/
def Chaikin.rule (prev v : Chaikin.Data F) : Side := crossRule v.value (fl 0) prev.value (fl 0)

theorem Chaikin.signals (fastP slowP : Int) :
    Signals (Chaikin (F := F) fastP slowP) (fun _ => True)
      (fun x => pairSide Chaikin.rule (Chaikin.out fastP slowP x)) :=
  signals_pair (I := Chaikin fastP slowP) Chaikin.rule (Chaikin.appends fastP slowP).yields fun it n x hx =>
    ⟨it, rfl, by simp only [Chaikin.sides, len_of hx]; rfl⟩

/-- The rule of `PercentagePriceOscillator`. -/
def PPO.rule (prev v : PPO.Data F) : Side := crossRule v.ppo v.signal prev.ppo prev.signal

theorem PPO.signals (fastP slowP signalP : Int) :
    Signals (PPO (F := F) fastP slowP signalP) (fun _ => True)
      (fun x => pairSide PPO.rule (PPO.out fastP slowP signalP x)) :=
  signals_pair (I := PPO fastP slowP signalP) PPO.rule (PPO.appends fastP slowP signalP).yields fun it n x hx =>
    ⟨it, rfl, by simp only [PPO.sides, len_of hx]; rfl⟩

/-- The rule of `StochasticOscillator` and `StochRsi`. -/
def KD.rule (prev v : KD F) : Side := crossRule v.k v.d prev.k prev.d

theorem Stoch.signals (period : Int) :
    Signals (Stoch (F := F) period) (okW period) (fun x => pairSide KD.rule (Stoch.out period x)) :=
  signals_pair (I := Stoch period) KD.rule (Stoch.appends period).yields fun it n x hx =>
    ⟨it, rfl, by simp only [KD.sides, len_of hx]; rfl⟩

theorem StochRSI.signals (smoothK smoothD rsiLen stochLen : Int) :
    Signals (StochRSI (F := F) smoothK smoothD rsiLen stochLen) (fun n => okRsi rsiLen n ∧ okW stochLen n)
      (fun x => pairSide KD.rule (StochRSI.out smoothK smoothD rsiLen stochLen x)) :=
  signals_pair (I := StochRSI smoothK smoothD rsiLen stochLen) KD.rule
    (StochRSI.appends smoothK smoothD rsiLen stochLen).yields fun it n x hx =>
    ⟨it, rfl, by simp only [KD.sides, len_of hx]; rfl⟩

/-- The rule of `WilliamsR`. -/
def Williams.rule (prev v : Rec F) : Side :=
  if v.value <. fl (-80) && prev.value >. fl (-80) then Buy
  else if v.value >. fl (-20) && prev.value <. fl (-20) then Sell else Hold

theorem Williams.signals (period : Int) :
    Signals (Williams (F := F) period) (okW period) (fun x => pairSide Williams.rule (Williams.out period x)) :=
  signals_pair (I := Williams period) Williams.rule (Williams.appends period).yields fun it n x hx =>
    ⟨it, rfl, by simp only [Williams.sides, len_of hx]; rfl⟩

/-- The rule of `ProjectionOscillator`: the current record only. -/
def Projection.rule (_ v : Projection.Data F) : Side :=
  if v.po >. v.spo then Buy else if v.po <. v.spo then Sell else Hold

theorem Projection.signals (period smooth : Int) :
    Signals (Projection (F := F) period smooth) (okW period)
      (fun x => pairSide Projection.rule (Projection.out period smooth x)) :=
  signals_pair (I := Projection period smooth) Projection.rule (Projection.appends period smooth).yields
    fun it n x hx => ⟨it, rfl, by simp only [Projection.sides, len_of hx]; rfl⟩

theorem MACD.signals (shortP signalP longP : Int) :
    Signals (MACD (F := F) shortP signalP longP) (fun _ => True)
      (fun x => pairSide MACD.rule (MACD.out shortP signalP longP x)) :=
  signals_pair (I := MACD shortP signalP longP) MACD.rule (MACD.makes shortP signalP longP).yields
    fun it n x hx => ⟨it, rfl, by simp only [MACD.sides, len_of hx]⟩

/-- The rule of `Cci` and `AiCoinCCI`. -/
def CCIi.rule (prev v : Rec F) : Side :=
  if v.value <. fl (-100) && prev.value >. fl (-100) then Buy
  else if v.value >. fl 100 && prev.value <. fl 100 then Sell else Hold

theorem AiCCI.signals (period : Int) :
    Signals (AiCCI (F := F) period) (fun _ => True) (fun x => pairSide CCIi.rule (AiCCI.out period x)) :=
  signals_pair (I := AiCCI period) CCIi.rule (AiCCI.appends period).yields fun it n x hx =>
    ⟨it, rfl, by simp only [CCIi.sides, len_of hx]; rfl⟩

theorem CCIi.signals (period smaPeriod : Int) :
    Signals (CCIi (F := F) period smaPeriod) (okCci period smaPeriod)
      (fun x => pairSide CCIi.rule (CCIi.out period smaPeriod x)) :=
  signals_pair (I := CCIi period smaPeriod) CCIi.rule (CCIi.appends period smaPeriod).yields fun it n x hx =>
    ⟨it, rfl, by simp only [CCIi.sides, len_of hx]; rfl⟩

/-- The rule of `Rsi`: both signals on a *falling* crossing. -/
def RSI.rule (prev v : Rec F) : Side :=
  if v.value <. fl 20 && prev.value >. fl 20 then Buy
  else if v.value <. fl 80 && prev.value >. fl 80 then Sell else Hold

theorem RSI.signals (period : Int) :
    Signals (RSI (F := F) period) (okRsi period) (fun x => pairSide RSI.rule (RSI.out period x)) :=
  signals_pair (I := RSI period) RSI.rule (RSI.appends period).yields fun it n x hx =>
    ⟨it, rfl, by simp only [RSI.sides, len_of hx]; rfl⟩

theorem KDJ.signals (period : Int) :
    Signals (KDJ (F := F) period) (okKdj period) (fun x => pairSide KDJ.rule (KDJ.out period x)) :=
  signals_pair (I := KDJ period) KDJ.rule (KDJ.makes period).yields fun it n x hx =>
    ⟨it, rfl, by simp only [KDJ.sides, len_of hx]⟩

theorem Heat.signals (inc smoothFast smoothSlow plot : Int) (kind : MAKind) :
    Signals (Heat (F := F) inc smoothFast smoothSlow plot kind)
      (fun n => (okW inc n ∧ okFast kind smoothFast n) ∧ okSlow kind smoothSlow n)
      (fun x => pairSide Heat.rule (Heat.out inc smoothFast smoothSlow plot kind x)) :=
  signals_pair (I := Heat inc smoothFast smoothSlow plot kind) Heat.rule
    (Heat.appends inc smoothFast smoothSlow plot kind).yields fun it n x hx =>
    ⟨it, rfl, by simp only [Heat.sides, len_of hx]⟩

/-- The rule of the two supertrends on the current record only. -/
def ST.rule₂ (_ v : ST.Data F) : Side := ST.rule v

theorem ST.signals (period mult : Int) (changeAtr : Bool) :
    Signals (ST (F := F) period mult changeAtr) (fun n => okAtr period n ∧ (changeAtr = false → okS period n))
      (fun x => pairSide ST.rule₂ (ST.out period mult changeAtr x)) :=
  signals_pair (I := ST period mult changeAtr) ST.rule₂ (ST.makes period mult changeAtr).yields
    fun it n x hx => ⟨_, by simp only [GetOHLC_tab hx, HL2_tab hx, ok_bind]; rfl, by
      simp only [ST.sides, tab_length]; rfl⟩

theorem PPST.signals (period atrPeriod : Int) (factor : F) :
    Signals (PPST (F := F) period atrPeriod factor) (fun n => 0 ≤ period ∧ okAtr atrPeriod n)
      (fun x => pairSide ST.rule₂ (PPST.out period atrPeriod factor x)) :=
  signals_pair (I := PPST period atrPeriod factor) ST.rule₂ (PPST.makes period atrPeriod factor).yields
    fun it n x hx => ⟨_, GetOHLC_tab hx, by simp only [ST.sides, tab_length]; rfl⟩

theorem UT.signals (period atrPeriod : Int) :
    Signals (UT (F := F) period atrPeriod) (okAtr atrPeriod)
      (fun x => pairSide UT.rule (UT.out period atrPeriod x)) :=
  signals_pair (I := UT period atrPeriod) UT.rule (UT.makes period atrPeriod).yields
    fun it n x hx => ⟨_, GetOHLC_tab hx, by simp only [UT.sides, tab_length]⟩

/-! ## Rules on records and closing prices -/

/-- The side of a candle from two records and two closes. -/
def closeSide {D : Type} (rule : D → D → F → F → Side) (g : Nat → D) (c : Nat → F) : Nat → Side
  | 0 => Buy
  | k + 1 => rule (g k) (g (k + 1)) (c k) (c (k + 1))

theorem closeSides_tab {D : Type} {it : Item F} {n : Nat} {x : Nat → Candle F} (hx : it.candles = tab n x)
    (rule : D → D → F → F → Side) (g : Nat → D) :
    closeSides rule it (tab n g) = .ok (tab n (closeSide rule g (cl x))) := by
  simp only [closeSides, GetOHLC_tab hx, ohlcOf, ok_bind, len_of hx]
  refine sideLoop_tab _ (fun k hk => ?_) rfl
  have e : ((k + 1 : Nat) : Int) - 1 = (k : Int) := by omega
  rw [idx_tab hk, ok_bind, e, idx_tab (by omega), ok_bind]
  rfl

theorem Donchian.signals (period : Int) :
    Signals (Donchian (F := F) period) (okW period)
      (fun x => closeSide Band.rule (Donchian.out period x) (cl x)) :=
  signals_of (I := Donchian period) (Donchian.appends period).yields fun it _ _ hx =>
    ⟨it, rfl, fun _ => closeSides_tab hx _ _⟩

theorem Keltner.signals (period : Int) :
    Signals (Keltner (F := F) period) (fun _ => True)
      (fun x => closeSide Band.rule (Keltner.out period x) (cl x)) :=
  signals_of (I := Keltner period) (Keltner.appends period).yields fun it _ _ hx =>
    ⟨it, rfl, fun _ => closeSides_tab hx _ _⟩

/-! ## IchimokuCloud -/

/-- The side of a candle: the first `convP` candles are never written. -/
def ichiSide (convP spanBP lagP : Int) (x : Nat → Candle F) (i : Nat) : Side :=
  if (i : Int) < convP then Buy
  else Ichimoku.rule (cl x i) (cl x (i - 1)) (Ichimoku.out convP spanBP lagP x (i - 1))
    (Ichimoku.out convP spanBP lagP x i)

theorem Ichimoku.signals (convP spanBP lagP : Int) :
    Signals (Ichimoku (F := F) convP spanBP lagP) (fun n => okW convP n ∧ okW spanBP n ∧ okS lagP n)
      (ichiSide convP spanBP lagP) :=
  signals_of (I := Ichimoku convP spanBP lagP) (Ichimoku.appends convP spanBP lagP).yields
    fun it n x hx => ⟨it, rfl, fun ⟨h, _, _⟩ => by
      simp only [Ichimoku.sides, GetOHLC_tab hx, ohlcOf, ok_bind, len_of hx, sideLoop, mk_nat, tab_length]
      refine goFor_fill₀ _ fun k hk => ?_
      rw [idx_tab hk, ok_bind]
      by_cases hc : (k : Int) < convP
      · rw [if_pos hc]
        refine congrArg Except.ok (tab_ext fun i _ => ?_)
        rcases lt_trichotomy i k with hi | rfl | hi
        · simp [hi, show i < k + 1 by omega]
        · simp [ichiSide, hc]
        · simp [show ¬ i < k by omega, show ¬ i < k + 1 by omega]
      · have e : (k : Int) - 1 = ((k - 1 : Nat) : Int) := by
          rcases h with h | h <;> omega
        rw [if_neg hc, e]
        simp only [idx_tab hk, idx_tab (show k - 1 < n by omega), ok_bind, pure_eq_ok]
        exact setAt_filled hk (by rw [ichiSide, if_neg hc])⟩

/-! ## EMAVegas -/

/-- Whether the short line crossed above the long line in one of the ten candles before candle `i`. -/
def vegasUp (g : Nat → Vegas.Data F) (i : Nat) : Bool :=
  (List.range 10).any fun j => (g (i - 10 + j)).short2 >. (g (i - 10 + j)).long2 &&
    (g (i - 10 + j - 1)).short2 <. (g (i - 10 + j - 1)).long2
@[inherit_doc vegasUp] def vegasDown (g : Nat → Vegas.Data F) (i : Nat) : Bool :=
  (List.range 10).any fun j => (g (i - 10 + j)).short2 <. (g (i - 10 + j)).long2 &&
    (g (i - 10 + j - 1)).short2 >. (g (i - 10 + j - 1)).long2

/-- The side of a candle: the first eleven candles are never written. -/
def vegasSide (g : Nat → Vegas.Data F) (x : Nat → Candle F) (i : Nat) : Side :=
  if i < 11 then Buy else Vegas.rule (g i) (bu x i) (vegasUp g i) (vegasDown g i)

theorem any_range_succ (f : Nat → Bool) (k : Nat) :
    (List.range (k + 1)).any f = if f k then true else (List.range k).any f := by
  rw [List.range_succ, List.any_append]
  cases h : f k <;> simp [h]

theorem Vegas.signals (p s1 s2 l1 l2 : Int) :
    Signals (Vegas (F := F) p s1 s2 l1 l2) (fun _ => True)
      (fun x => vegasSide (Vegas.out p s1 s2 l1 l2 x) x) :=
  signals_of (I := Vegas p s1 s2 l1 l2) (Vegas.makes p s1 s2 l1 l2).yields fun it n x hx =>
    ⟨_, GetOHLC_tab hx, fun _ => by
      show Vegas.sides _ _ = _
      generalize Vegas.out p s1 s2 l1 l2 x = g
      simp only [Vegas.sides, ohlcOf, tab_length, mk_nat, ok_bind]
      refine goFor_fill₀ _ fun k hk => ?_
      have hskip : k < 11 → (filled n k (vegasSide g x) Buy) = filled n (k + 1) (vegasSide g x) Buy := by
        intro h11
        refine tab_ext fun i _ => ?_
        rcases lt_trichotomy i k with hi | rfl | hi
        · simp [hi, show i < k + 1 by omega]
        · simp [vegasSide, h11]
        · simp [show ¬ i < k by omega, show ¬ i < k + 1 by omega]
      by_cases h1 : k < 1
      · rw [if_pos (by omega)]
        exact congrArg Except.ok (hskip (by omega))
      · rw [if_neg (by omega), idx_tab hk, ok_bind]
        by_cases h11 : k < 11
        · rw [if_pos (by omega)]
          exact congrArg Except.ok (hskip h11)
        · rw [if_neg (by omega)]
          have e1 : (k : Int) - 10 = ((k - 10 : Nat) : Int) := by omega
          rw [e1, goFor_acc (lo := k - 10) (hi := k) (by omega) (fun m =>
            ((List.range (m - (k - 10))).any fun j => (g (k - 10 + j)).short2 >. (g (k - 10 + j)).long2 &&
                (g (k - 10 + j - 1)).short2 <. (g (k - 10 + j - 1)).long2,
              (List.range (m - (k - 10))).any fun j => (g (k - 10 + j)).short2 <. (g (k - 10 + j)).long2 &&
                (g (k - 10 + j - 1)).short2 >. (g (k - 10 + j - 1)).long2)) (by simp)]
          · rw [ok_bind, show k - (k - 10) = 10 by omega, idx_tab hk, ok_bind]
            exact setAt_filled hk (by rw [vegasSide, if_neg h11]; rfl)
          · intro m hm hm'
            have e2 : (m : Int) - 1 = ((m - 1 : Nat) : Int) := by omega
            obtain ⟨d, rfl⟩ : ∃ d, m = k - 10 + d := ⟨m - (k - 10), by omega⟩
            have e3 : k - 10 + d + 1 - (k - 10) = d + 1 := by omega
            rw [idx_tab (by omega), ok_bind, e2, idx_tab (by omega), ok_bind, e3, Nat.add_sub_cancel_left,
              any_range_succ, any_range_succ]
            rfl⟩

/-! ## TraderXO -/

/-- State of the loop after candle `i`, and the side of candle `i`. -/
def xoF (g : Nat → XO.Data F) : Nat → XO.St × Side
  | 0 => (⟨0, 0, false, false⟩, Hold)
  | k + 1 => XO.step (xoF g k).1 (g (k + 1))

theorem XO.signals (fastP slowP : Int) :
    Signals (XO (F := F) fastP slowP) (fun _ => True)
      (fun x i => (xoF (XO.out fastP slowP x) i).2) :=
  signals_of (I := XO fastP slowP) (XO.makes fastP slowP).yields fun it n x hx =>
    ⟨_, GetOHLC_tab hx, fun _ => by
      show XO.sides (ohlcOf n x) _ = _
      generalize XO.out fastP slowP x = g
      simp only [XO.sides, tab_length, mk_nat, ok_bind]
      rw [goFor_fill (s := (⟨0, 0, false, false⟩ : XO.St)) (fun i => (xoF g i).2)
        (fun k => (xoF g (k - 1)).1) rfl]
      · rfl
      · intro k hk
        cases k with
        | zero =>
          rw [if_pos (by omega)]
          simp only []
          rw [setAt_filled (f := fun i => (xoF g i).2) (v := Hold) hk rfl]
          rfl
        | succ k =>
          rw [if_neg (by omega), idx_tab hk, ok_bind]
          simp only [Nat.add_sub_cancel]
          rw [setAt_filled (f := fun i => (xoF g i).2) (v := (XO.step (xoF g k).1 (g (k + 1))).2) hk rfl]
          rfl⟩

end

section math
variable [GoMath F]

/-- The rule of `MoneyFlowIndex`. -/
def MFI.rule (prev v : Rec F) : Side :=
  if v.value <. fl 10 && prev.value >. fl 10 then Buy
  else if v.value >. fl 90 && prev.value <. fl 90 then Sell else Hold

theorem MFI.signals (period : Int) :
    Signals (MFI (F := F) period) (okS period) (fun x => pairSide MFI.rule (MFI.out period x)) :=
  signals_pair (I := MFI period) MFI.rule (MFI.appends period).yields fun it n x hx =>
    ⟨it, rfl, by simp only [MFI.sides, len_of hx]; rfl⟩

theorem Boll.signals (period periodK : Int) :
    Signals (Boll (F := F) period periodK) (fun n => 0 < period ∨ n = 0)
      (fun x => closeSide Boll.rule (Boll.out period x) (cl x)) :=
  signals_of (I := Boll period periodK) (Boll.makes period periodK).yields fun it _ _ hx =>
    ⟨it, rfl, fun _ => closeSides_tab hx _ _⟩

end math

end Verif.Ind
