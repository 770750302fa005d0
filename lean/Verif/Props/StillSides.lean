import Verif.Props.Still
import Verif.Props.F64Math
import Verif.Ind.Defaults

/-!
# A market that does not move: the theorems (C126)

`Still b it` and `HoldsFrom k I it` are the vocabulary of Still.lean. Candle 0 is excluded for the strategies that
leave the first entry of the answer at its zero value, which is `Buy` (C09).
-/

namespace Verif.Props
open Verif Verif.Klines Verif.Ta Verif.Ind Verif.Container GoFloat XF

variable {K : Type} [Field K] [LinearOrder K] [IsStrictOrderedRing K]

/-- The strategies that hold from the given candle on in a still market, with the parameters for which they do. -/
inductive Calm : Nat → Strat (XF K) → Prop
  | apo (p q : Nat) : Calm 1 (APO (p : Int) q)
  | awesome : Calm 1 Awesome
  | ppo (p q r : Nat) : Calm 1 (PPO (p : Int) q r)
  | macd (p q r : Nat) : Calm 1 (MACD (p : Int) q r)
  | vegas (p s₁ s₂ l₁ l₂ : Nat) : Calm 11 (Vegas (p : Int) s₁ s₂ l₁ l₂)
  | xo (p q : Nat) : Calm 0 (XO (p : Int) q)
  | stoch (p : Nat) : Calm 1 (Stoch (p : Int))
  | stochRsi (k d r t : Nat) : Calm 1 (StochRSI (k : Int) d r t)
  | rsi (p : Nat) : Calm 1 (RSI (p : Int))
  | williams (p : Nat) : Calm 1 (Williams (p : Int))
  | cci (p q : Nat) : 0 < q → Calm 1 (CCIi (p : Int) q)
  | aiCci (p : Nat) : Calm 1 (AiCCI (p : Int))
  | donchian (p : Nat) : Calm 1 (Donchian (p : Int))
  | keltner (p : Nat) : Calm 1 (Keltner (p : Int))
  | ichimoku (p q r : Nat) : Calm p (Ichimoku (p : Int) q r)
  | chaikin (p q : Nat) : 1 ≤ p → 1 ≤ q → Calm 1 (Chaikin (p : Int) q)
  | kdj (p : Int) : Calm 1 (KDJ p)
  | heat (inc f s plot : Nat) (kind : MAKind) : 0 < f → 0 < s → 0 < plot → Calm 1 (Heat (inc : Int) f s plot kind)
  | ut (p : Nat) (a : Int) : Calm 1 (UT (p : Int) a)

/-- **C126.** In exact arithmetic, on a series of any length whose candles all hold the same well-formed bar, each of the
nineteen strategies of `Calm` answers `Hold` at every candle from its first judged candle on. Missing: `SuperTrend`,
`PivotPointSuperTrend` and `ProjectionOscillator`, for which it is false (`C126_supertrend_refuted`,
`C126_pivot_supertrend_refuted`, `C126_projection_refuted`) unless the bar is a single price (`C126_point`); and
float64, where it is false for `TraderXO` (`C103_traderXO_flat_refuted`) and `Boll` (`C126_boll_float64_refuted`). -/
theorem C126_still_market_partial {k : Nat} {I : Strat (XF K)} (hI : Calm k I) {b : Bar K} (hb : b.WF)
    {it : Item (XF K)} (h : Still b it) : HoldsFrom k I it := by
  cases hI with
  | apo p q => exact apo_still p q h
  | awesome => exact awesome_still h
  | ppo p q r => exact ppo_still p q r h
  | macd p q r => exact macd_still p q r h
  | vegas p s₁ s₂ l₁ l₂ => exact vegas_still p s₁ s₂ l₁ l₂ h
  | xo p q => exact xo_still p q h
  | stoch p => exact stoch_still p h
  | stochRsi k d r t => exact stochRsi_still k d r t h
  | rsi p => exact rsi_still p h
  | williams p => exact williams_still p h
  | cci p q hq => exact cci_still p q hq h
  | aiCci p => exact aiCci_still p h
  | donchian p => exact donchian_still p h
  | keltner p => exact keltner_still p h
  | ichimoku _ q r => exact ichimoku_still k q r h
  | chaikin p q hp hq => exact chaikin_still hp hq hb h
  | kdj p => exact kdj_still p h
  | heat inc f s plot kind hf hs hplot => exact heat_still hf hs hplot kind h
  | ut p a => exact ut_still p a (hb.1.trans hb.2.1) h

/-- The default constructors are among them. -/
example : Calm (K := ℝ) 1 NewAbsolutePriceOscillator ∧ Calm (K := ℝ) 1 NewDefaultMacd ∧
    Calm (K := ℝ) 11 NewDefaultEMAVegas ∧ Calm (K := ℝ) 0 NewDefaultTraderXO ∧ Calm (K := ℝ) 1 NewDefaultKdj ∧
    Calm (K := ℝ) 1 NewDefaultStochasticHeat ∧ Calm (K := ℝ) 1 NewDefaultChaikinOscillator ∧
    Calm (K := ℝ) 20 NewDefaultIchimokuCloud ∧ Calm (K := ℝ) 1 NewDefaultUTBot :=
  ⟨.apo 14 30, .macd 12 9 26, .vegas 12 144 169 575 676, .xo 12 25, .kdj 9,
    .heat 8 7 26 25 .wma (by norm_num) (by norm_num) (by norm_num), .chaikin 3 10 (by norm_num) (by norm_num),
    .ichimoku 20 60 120, .ut 2 1⟩

/-- A candle with a range, and answers that exist. -/
example : (⟨10, 12, 9, 10, 1⟩ : Bar ℚ).WF ∧ Still (⟨10, 12, 9, 10, 1⟩ : Bar ℚ) (stillItem 4 ⟨10, 12, 9, 10, 1⟩) ∧
    (Stoch (F := XF ℚ) 2).signals (stillItem 4 ⟨10, 12, 9, 10, 1⟩) = .ok [Buy, Hold, Hold, Hold] ∧
    (Chaikin (F := XF ℚ) 2 3).signals (stillItem 4 ⟨10, 12, 9, 10, 1⟩) = .ok [Buy, Hold, Hold, Hold] ∧
    (XO (F := XF ℚ) 2 3).signals (stillItem 4 ⟨10, 12, 9, 10, 1⟩) = .ok [Hold, Hold, Hold, Hold] ∧
    (UT (F := XF ℚ) 1 1).signals (stillItem 4 ⟨10, 12, 9, 10, 1⟩) = .ok [Buy, Hold, Hold, Hold] :=
  ⟨by norm_num [Bar.WF], still_stillItem _ _, by decide +kernel, by decide +kernel, by decide +kernel,
    by decide +kernel⟩

/-- **C126 (Boll and MoneyFlowIndex).** The two strategies that need square roots or compare money flows, over the real
numbers. -/
theorem C126_boll_mfi {b : Bar ℝ} {it : Item (XF ℝ)} (h : Still b it) :
    (∀ p q : Int, HoldsFrom 1 (Boll p q) it) ∧
      (0 ≤ (b.h + b.l + b.c) / 3 * b.v → ∀ p : Nat, HoldsFrom 1 (MFI (p : Int)) it) :=
  ⟨fun p q => boll_still p q h, fun hb p => mfi_still p hb h⟩

example : Still (⟨10, 12, 9, 10, 1⟩ : Bar ℝ) (stillItem 4 ⟨10, 12, 9, 10, 1⟩) ∧
    0 ≤ ((12 : ℝ) + 9 + 10) / 3 * 1 ∧
    (∃ s, (Boll (F := XF ℝ) 2 2).signals (stillItem 4 ⟨10, 12, 9, 10, 1⟩) = .ok s ∧ s.length = 4) := by
  refine ⟨still_stillItem _ _, by norm_num, ?_⟩
  obtain ⟨x, hx⟩ := candles_tab (stillItem 4 (⟨10, 12, 9, 10, 1⟩ : Bar ℝ))
  exact ⟨_, (Boll.signals 2 2 _ _ x hx).1 (Or.inl (by norm_num)), by simp [tab_length, stillItem, barItem]⟩

/-- **C126 (Camarilla).** Whatever the second time frame contains and however the days are matched, a still first series
gives `Hold` at every candle. -/
theorem C126_camarilla (p : Nat) (day : Int → Int) (other : Item (XF K)) {b : Bar K} {it : Item (XF K)}
    (h : Still b it) {s : List Side} (hs : camarillaSignals p day other it = .ok s) : ∀ a ∈ s, a = Hold := by
  intro a ha
  obtain ⟨i, hi, rfl⟩ := List.mem_iff_getElem.mp ha
  have := camarilla_still p day other h hs i hi
  rw [List.getElem?_eq_getElem hi] at this
  exact Option.some.inj this

example : ∃ s, camarillaSignals (F := XF ℚ) 8 id (stillItem 2 ⟨1, 2, 1, 1, 1⟩) (stillItem 3 ⟨10, 12, 9, 10, 1⟩) = .ok s ∧
    s.length = 3 := ⟨[Hold, Hold, Hold], by decide +kernel, rfl⟩

/-- **C126 (one price).** When the unchanging candle is a single price that is not negative, `SuperTrend`,
`PivotPointSuperTrend` and `ProjectionOscillator` hold as well. -/
theorem C126_point {c v : K} (hc : 0 ≤ c) {it : Item (XF K)} (h : Still (point c v) it) :
    (∀ p m flag, HoldsFrom 1 (ST p m flag) it) ∧ (∀ p a f, HoldsFrom 1 (PPST p a (XF.fin f)) it) ∧
      ∀ p q : Nat, 2 ≤ p → HoldsFrom 1 (Projection (p : Int) q) it :=
  ⟨fun p m flag => st_point p m flag hc h, fun p a f => ppst_point p a f hc h, fun _ _ hp => projection_point hp h⟩

example : (ST (F := XF ℚ) 2 1 true).signals (stillItem 4 (point 10 1)) = .ok [Buy, Hold, Hold, Hold] ∧
    (PPST (F := XF ℚ) 1 2 (XF.fin 1)).signals (stillItem 4 (point 10 1)) = .ok [Buy, Hold, Hold, Hold] ∧
    (Projection (F := XF ℚ) 2 3).signals (stillItem 4 (point 10 1)) = .ok [Buy, Hold, Hold, Hold] := by
  decide +kernel

/-! ## Where it is false -/

/-- Thirty equal candles: `SuperTrend` with its default parameters sells at the third. -/
theorem C126_supertrend_refuted :
    ¬ HoldsFrom 1 (ST (F := XF ℚ) 10 3 true) (stillItem 30 ⟨10, 12, 9, 10, 1⟩) := by
  intro h
  have e : ((ST (F := XF ℚ) 10 3 true).signals (stillItem 30 ⟨10, 12, 9, 10, 1⟩)) =
      .ok (Buy :: Hold :: Sell :: List.replicate 27 Hold) := by decide +kernel
  have := h _ e 2 (by norm_num) (by decide)
  exact absurd this (by decide)

/-- Twenty equal candles: `PivotPointSuperTrend` with its default parameters sells at the eighth. -/
theorem C126_pivot_supertrend_refuted :
    ¬ HoldsFrom 1 (PPST (F := XF ℚ) 3 8 (lit (28 / 10))) (stillItem 20 ⟨10, 12, 9, 10, 1⟩) := by
  intro h
  have e : ((PPST (F := XF ℚ) 3 8 (lit (28 / 10))).signals (stillItem 20 ⟨10, 12, 9, 10, 1⟩)) =
      .ok (Buy :: List.replicate 6 Hold ++ Sell :: List.replicate 12 Hold) := by decide +kernel
  have := h _ e 7 (by norm_num) (by decide)
  exact absurd this (by decide)

theorem emaK_below {q : Nat} (hq : 2 ≤ q) {g : Nat → K} {P : K} (h0 : g 0 < P) (hg : ∀ i, g i ≤ P) (i : Nat) :
    emaK q g i < P := by
  induction i with
  | zero => exact h0
  | succ i ih =>
    have h1 : (2 : K) ≤ q := by exact_mod_cast hq
    rw [emaK, div_lt_iff₀ (by linarith)]
    nlinarith [hg (i + 1), mul_pos (show (0 : K) < q - 1 by linarith) (sub_pos.mpr ih)]

/-- `ProjectionOscillator` never stops buying: on any series of equal candles that close above their low, with a period and
a smoothing of at least two, it answers `Buy` at every candle from candle `p` on. The line is a positive constant there
and its smoothed version, which started at 0, stays below it for ever. -/
theorem C126_projection_refuted {b : Bar K} (hb : b.l < b.c) (hb' : b.c ≤ b.h) {p q : Nat} (hp : 2 ≤ p) (hq : 2 ≤ q)
    {it : Item (XF K)} (h : Still b it) {s : List Side} (hs : (Projection (p : Int) q).signals it = .ok s) {i : Nat}
    (hi : p ≤ i) (hl : i < s.length) : s[i]? = some Buy := by
  obtain ⟨x, hx, hc⟩ := h.cols
  obtain ⟨hok, rfl⟩ := signals_inv (Projection.signals p q) hx hs
  rw [tab_length] at hl
  rw [tab_getElem?_lt hl]
  obtain ⟨k, rfl⟩ : ∃ k, i = k + 1 := ⟨i - 1, by omega⟩
  have hP : 0 < (b.c - b.l) / (b.h - b.l) * 100 :=
    mul_pos (div_pos (by linarith) (by linarith)) (by norm_num)
  have hlt := emaK_below hq (g := fun i => if i < p then 0 else (b.c - b.l) / (b.h - b.l) * 100)
    (by rw [if_pos (by omega)]; exact hP) (fun i => by split <;> [exact hP.le; exact le_rfl]) (k + 1)
  refine congrArg some ?_
  simp only [pairSide, Projection.rule, Projection.out, Int.toNat_natCast, proj_still hp hc, emaF_fin, gt]
  simp only [finF, if_neg (show ¬ k + 1 < p by omega), lt_fin, hlt, decide_true, if_true]

example : Still (⟨10, 12, 9, 10, 1⟩ : Bar ℚ) (stillItem 17 ⟨10, 12, 9, 10, 1⟩) ∧
    (Projection (F := XF ℚ) 13 3).signals (stillItem 17 ⟨10, 12, 9, 10, 1⟩) =
      .ok (Buy :: List.replicate 12 Hold ++ List.replicate 4 Buy) :=
  ⟨still_stillItem _ _, by decide +kernel⟩

/-- In float64 `Boll` does not hold either: on a market that stays at 49.3, with the default period 20, the rounded upper
band dips below the price at the twenty-first candle and the strategy buys. -/
theorem C126_boll_float64_refuted [lib : B64.MathLib] :
    (NewDefaultBoll (F := B64)).signals (item64 (List.replicate 22 ⟨49.3, 49.3, 49.3, 49.3, 1⟩)) =
      .ok (Buy :: List.replicate 19 Hold ++ [Buy, Hold]) := by
  have e : @Boll B64 (@B64.math64 lib) 20 2 = @Boll B64 (@B64.math64 stubLib) 20 2 := rfl
  rw [NewDefaultBoll, e]
  decide +kernel

end Verif.Props
