import Verif.Props.Projection
import Verif.Props.Indicators
import Verif.Props.CamarillaSides
import Verif.Props.Inputs
import Verif.Props.Trailing

/-!
# A market that does not move (C126)

Exact arithmetic. Every candle holds the same open, high, low, close and volume; the times are arbitrary. Nothing
happens in such a market, so a strategy has nothing to say about it.
-/

set_option linter.unusedSectionVars false
set_option linter.unusedSimpArgs false

namespace Verif.Props
open Verif Verif.Klines Verif.Ta Verif.Ind Verif.Container GoFloat XF

variable {K : Type} [Field K] [LinearOrder K] [IsStrictOrderedRing K]

/-- Every candle of `it` holds the numbers of `b`. -/
def Still (b : Bar K) (it : Item (XF K)) : Prop :=
  ∀ c ∈ it.candles, c.open_ = .fin b.o ∧ c.high = .fin b.h ∧ c.low = .fin b.l ∧ c.close = .fin b.c ∧ c.volume = .fin b.v

/-- `AnalysisSide` holds at every candle from candle `k` on. -/
def HoldsFrom {F : Type} [GoFloat F] (k : Nat) (I : Strat F) (it : Item F) : Prop :=
  ∀ s, I.signals it = .ok s → ∀ i, k ≤ i → i < s.length → s[i]? = some Hold

/-- The series of `n` equal candles. -/
def stillItem (n : Nat) (b : Bar K) : Item (XF K) := barItem (List.replicate n b)

theorem still_stillItem (n : Nat) (b : Bar K) : Still b (stillItem n b) := by
  intro c hc
  simp only [stillItem, barItem, List.map_replicate, List.mem_replicate] at hc
  simp [hc.2, candleOf]

theorem Still.cols {b : Bar K} {it : Item (XF K)} (h : Still b it) :
    ∃ x, it.candles = tab it.candles.length x ∧ Cols it.candles.length x (fun _ => b) := by
  obtain ⟨x, hx⟩ := candles_tab it
  have key : ∀ i < it.candles.length, (x i).open_ = .fin b.o ∧ (x i).high = .fin b.h ∧ (x i).low = .fin b.l ∧
      (x i).close = .fin b.c ∧ (x i).volume = .fin b.v := fun i hi =>
    h _ (by rw [hx]; exact mem_tab.mpr ⟨i, hi, rfl⟩)
  refine ⟨fun i => if i < it.candles.length then x i else candleOf 0 b.o b.h b.l b.c b.v, ?_, ⟨?_, ?_, ?_, ?_, ?_⟩⟩
  · exact hx.trans (tab_ext fun i hi => by simp [hi])
  all_goals
    funext i
    simp only [Ind.op, Ind.hi, Ind.lo, Ind.cl, Ind.vo]
    split
    · next hi => simp [key i hi, finF]
    · rfl

/-! ## Rules that compare two neighbouring candles -/

section
variable {G : Type} [GoFloat G] (ha : LtAsymm G)
include ha

theorem and_asymm (a b : G) : (a <. b && b <. a) = false := by
  cases h : a <. b
  · rfl
  · simp [ha a b h]

theorem crossRule_self (a b : G) : crossRule a b a b = Hold := by
  have h := and_asymm ha a b
  have h' := and_asymm ha b a
  simp only [crossRule, gt] at *
  simp [h, h']

end

theorem lt_irrefl_XF (a : XF K) : (a <. a) = false := by
  cases h : a <. a
  · rfl
  · exact h.symm.trans (ltAsymm_XF a a h)

/-- A strategy that compares neighbouring records is silent where the rule gives `Hold`. -/
theorem quiet_pair {I : Strat (XF K)} {D : Type} {ok : Nat → Prop} {rule : D → D → Side}
    {g : (Nat → Candle (XF K)) → Nat → D} (hs : Signals I ok (fun x => pairSide rule (g x))) {b : Bar K}
    {it : Item (XF K)} (h : Still b it)
    (hr : ∀ x n, ok n → 0 < n → Cols n x (fun _ => b) → ∀ k, rule (g x k) (g x (k + 1)) = Hold) : HoldsFrom 1 I it := by
  intro s hs' i hi hl
  obtain ⟨x, hx, hc⟩ := h.cols
  obtain ⟨hok, rfl⟩ := signals_inv hs hx hs'
  rw [tab_length] at hl
  rw [tab_getElem?_lt hl]
  obtain ⟨k, rfl⟩ : ∃ k, i = k + 1 := ⟨i - 1, by omega⟩
  exact congrArg some (hr x _ hok (by omega) hc k)

/-- The same for a rule that also looks at the closes. -/
theorem quiet_close {I : Strat (XF K)} {D : Type} {ok : Nat → Prop} {rule : D → D → XF K → XF K → Side}
    {g : (Nat → Candle (XF K)) → Nat → D} (hs : Signals I ok (fun x => closeSide rule (g x) (cl x))) {b : Bar K}
    {it : Item (XF K)} (h : Still b it)
    (hr : ∀ x n, ok n → 0 < n → Cols n x (fun _ => b) → ∀ k, rule (g x k) (g x (k + 1)) (.fin b.c) (.fin b.c) = Hold) :
    HoldsFrom 1 I it := by
  intro s hs' i hi hl
  obtain ⟨x, hx, hc⟩ := h.cols
  obtain ⟨hok, rfl⟩ := signals_inv hs hx hs'
  rw [tab_length] at hl
  rw [tab_getElem?_lt hl]
  obtain ⟨k, rfl⟩ : ∃ k, i = k + 1 := ⟨i - 1, by omega⟩
  have := hr x _ hok (by omega) hc k
  show some (rule _ _ (cl x k) (cl x (k + 1))) = _
  rw [hc.cl]
  exact congrArg some this

/-! ## Averages and windows of a constant -/

theorem ema_still (p : Nat) (c : K) : emaF p (finF fun _ => c) = finF fun _ => c := by
  rw [emaF_expMean]
  funext i
  exact congrArg XF.fin (expMean_const fun _ _ => rfl)

theorem psum_still (c : K) (n : Nat) : psum (fun _ => c) n = n * c := by
  simp [psum]

theorem sma_still {p : Nat} (hp : 0 < p) (c : K) : smaF p (finF fun _ => c) = finF fun _ => c := by
  funext i
  rw [smaF_fin hp, psum_still, psum_still]
  have e : ((i + 1 : Nat) : K) * c - ((i + 1 - p : Nat) : K) * c = ((min p (i + 1) : Nat) : K) * c := by
    rw [← sub_mul, show i + 1 - p = i + 1 - min p (i + 1) by omega, Nat.cast_sub (Nat.min_le_right ..), sub_sub_cancel]
  rw [e, mul_div_cancel_left₀ _ (natCast_ne (by omega))]

theorem max_still {p : Nat} (hp : 0 < p) (c : K) : maxF p (finF fun _ => c) = finF fun _ => c := by
  funext i
  obtain ⟨m, e, ⟨j, _, _, h⟩, _⟩ := maxF_fin hp (fun _ : Nat => c) i
  rw [e, ← h]

theorem min_still {p : Nat} (hp : 0 < p) (c : K) : minF p (finF fun _ => c) = finF fun _ => c := by
  funext i
  obtain ⟨m, e, ⟨j, _, _, h⟩, _⟩ := minF_fin hp (fun _ : Nat => c) i
  rw [e, ← h]

theorem wma_still {p : Nat} (hp : 0 < p) (c : K) (i : Nat) :
    wmaF p (finF fun _ => c) i = .fin (if i + 1 < p then 0 else c) := by
  rw [wmaF_fin hp]
  refine congrArg XF.fin ?_
  split
  · rfl
  · have e : ∑ j ∈ Finset.range p, c * ((j : K) + 1) = c * ((p : K) * (p + 1) / 2) := by
      rw [← Finset.mul_sum, Finset.sum_add_distrib, sum_pos]
      simp
      left
      ring
    rw [e, mul_div_assoc, div_self, mul_one]
    have : (0 : K) < p := Nat.cast_pos.mpr hp
    positivity

/-! ## The strategies -/

section strategies
variable {b : Bar K} {it : Item (XF K)}

theorem apo_still (p q : Nat) (h : Still b it) : HoldsFrom 1 (APO (p : Int) q) it :=
  quiet_pair (APO.signals p q) h fun x n _ _ hc k => by
    simp only [zeroRule, APO.out, hc.cl, ema_still]
    exact crossRule_self ltAsymm_XF _ _

theorem med_still {x} {n : Nat} (hc : Cols n x (fun _ => b)) : medF x = finF fun _ => (b.l + b.h) * (1 / 2) := by
  funext i
  rw [medF, hc.lo, hc.hi]
  simp [finF, fl_fin, div_fin]

theorem awesome_still (h : Still b it) : HoldsFrom 1 Awesome it :=
  quiet_pair Awesome.signals h fun x n _ _ hc k => by
    have e5 := ema_still 5 ((b.l + b.h) * (1 / 2))
    have e34 := ema_still 34 ((b.l + b.h) * (1 / 2))
    simp only [Nat.cast_ofNat] at e5 e34
    simp only [zeroRule, Awesome.out, med_still hc, e5, e34]
    exact crossRule_self ltAsymm_XF _ _

theorem ppo_still (p q r : Nat) (h : Still b it) : HoldsFrom 1 (PPO (p : Int) q r) it :=
  quiet_pair (PPO.signals p q r) h fun x n _ _ hc k => by
    have e : ppoF (p : Int) q x = finF fun _ => 0 := by
      funext i
      simp [ppoF, hc.cl, ema_still, finF, subF_fin, safeDiv_fin_eq, fl_fin]
    simp only [PPO.rule, PPO.out, e, ema_still]
    exact crossRule_self ltAsymm_XF _ _

theorem macd_still (p q r : Nat) (h : Still b it) : HoldsFrom 1 (MACD (p : Int) q r) it :=
  quiet_pair (MACD.signals p q r) h fun x n _ _ hc k => by
    have e : difF (p : Int) r x = finF fun _ => 0 := by
      funext i
      simp [difF, hc.cl, ema_still, finF, subF_fin]
    simp [MACD.rule, MACD.out, e, ema_still, finF, fl_fin, gt]

theorem vegas_still (p s1 s2 l1 l2 : Nat) (h : Still b it) : HoldsFrom 11 (Vegas (p : Int) s1 s2 l1 l2) it := by
  intro s hs' i hi hl
  obtain ⟨x, hx, hc⟩ := h.cols
  obtain ⟨hok, rfl⟩ := signals_inv (Vegas.signals p s1 s2 l1 l2) hx hs'
  rw [tab_length] at hl
  rw [tab_getElem?_lt hl, vegasSide, if_neg (by omega)]
  simp [Vegas.rule, Vegas.out, hc.cl, ema_still, finF, gt]

theorem xo_still (p q : Nat) (h : Still b it) : HoldsFrom 0 (XO (p : Int) q) it := by
  intro s hs' i hi hl
  obtain ⟨x, hx, hc⟩ := h.cols
  obtain ⟨hok, rfl⟩ := signals_inv (XO.signals p q) hx hs'
  rw [tab_length] at hl
  rw [tab_getElem?_lt hl]
  cases i with
  | zero => rfl
  | succ k => simp [xoF, XO.step, XO.out, hc.cl, ema_still, finF, gt]

theorem stochF_still {p : Nat} (hp : 0 < p) (c h l : K) :
    stochF p (finF fun _ => c) (finF fun _ => h) (finF fun _ => l) = finF fun _ => (c - l) / (h - l) * 100 := by
  funext i
  simp [stochF, max_still hp, min_still hp, finF, subF_fin, safeDiv_fin_eq, fl_fin]

theorem stoch_still (p : Nat) (h : Still b it) : HoldsFrom 1 (Stoch (p : Int)) it :=
  quiet_pair (Stoch.signals p) h fun x n ok hn hc k => by
    have hp : 0 < p := by rcases ok with h | h <;> omega
    have e : stochK (p : Int) x = finF fun _ => (b.c - b.l) / (b.h - b.l) * 100 := by
      show stochF (p : Int).toNat (cl x) (hi x) (lo x) = _
      rw [hc.cl, hc.hi, hc.lo, Int.toNat_natCast, stochF_still hp]
    simp only [KD.rule, Stoch.out, e, sma_still (show 0 < 3 by omega)]
    exact crossRule_self ltAsymm_XF _ _

theorem rsi_zero (p : Nat) (c : K) : rsiF p (finF fun _ => c) = finF fun _ => 0 := by
  have h0 : ∀ k, rsiInit (finF fun _ => c) k = (.fin 0, .fin 0) := by
    intro k
    induction k with
    | zero => simp [rsiInit, fl_fin]
    | succ k ih => simp [rsiInit, ih, rsiStep, finF, fl_fin]
  have hw : ∀ p, 0 < p → ∀ k, rsiW p (finF fun _ => c) k = (.fin 0, .fin 0) := by
    intro p hp k
    have hne := natCast_ne (K := K) hp
    induction k with
    | zero => simp [rsiW, h0, fl_nat, div_fin hne]
    | succ k ih => simp [rsiW, ih, rsiStep, finF, fl_fin, div_fin hne]
  funext i
  rw [rsiF]
  split
  · simp [finF, fl_fin]
  · rw [hw p (by omega)]
    simp [rsiVal, fl_fin, finF]
    norm_num

theorem rsi_still (p : Nat) (h : Still b it) : HoldsFrom 1 (RSI (p : Int)) it :=
  quiet_pair (RSI.signals p) h fun x n _ _ hc k => by
    simp only [RSI.rule, RSI.out, hc.cl, Int.toNat_natCast, rsi_zero, finF, gt, fl_fin, lt_fin]
    norm_num

theorem stochRsi_still (p q r t : Nat) (h : Still b it) : HoldsFrom 1 (StochRSI (p : Int) q r t) it :=
  quiet_pair (StochRSI.signals p q r t) h fun x n ok hn hc k => by
    have ht : 0 < t := by rcases ok.2 with h | h <;> omega
    have e : stochRsiF (r : Int) t x = finF fun _ => 0 := by
      rw [stochRsiF, hc.cl, Int.toNat_natCast, Int.toNat_natCast, rsi_zero, stochF_still ht]
      simp
    simp only [KD.rule, StochRSI.out, e, ema_still]
    exact crossRule_self ltAsymm_XF _ _

theorem williams_still (p : Nat) (h : Still b it) : HoldsFrom 1 (Williams (p : Int)) it :=
  quiet_pair (Williams.signals p) h fun x n ok hn hc k => by
    have hp : 0 < p := by rcases ok with h | h <;> omega
    have e : williamsF (p : Int) x (k + 1) = williamsF (p : Int) x k := by
      simp [williamsF, hc.hi, hc.lo, hc.cl, max_still hp, min_still hp, finF]
    have a1 := and_asymm (ltAsymm_XF (K := K)) (williamsF (p : Int) x k) (fl (-80))
    have a2 := and_asymm (ltAsymm_XF (K := K)) (fl (-20)) (williamsF (p : Int) x k)
    simp only [Williams.rule, Williams.out, e, gt, a1, a2, Bool.false_eq_true, if_false]

/-- A value that is 0 or not a number never leaves the band of the two `Cci` strategies. -/
theorem cciRule_null {r v : Rec (XF K)} (h : v.value = .fin 0 ∨ v.value = .nan) : CCIi.rule r v = Hold := by
  have h0 : ¬ (100 : K) < 0 := by norm_num
  rcases h with h | h <;> simp [CCIi.rule, h, gt, fl_fin, GoFloat.lt, XF.lt, h0]

theorem cci_still (p q : Nat) (hq : 0 < q) (h : Still b it) : HoldsFrom 1 (CCIi (p : Int) q) it :=
  quiet_pair (CCIi.signals p q) h fun x n ok hn hc k => by
    refine cciRule_null ?_
    have e : typF x = finF fun _ => (b.h + b.l + b.c) / 3 := by
      funext i
      rw [typF, hc.lo, hc.hi, hc.cl]
      simp [finF, div_fin]
    simp only [CCIi.out, Int.toNat_natCast, e]
    rw [cciF]
    split
    · left; simp
    · have hm : ∃ m : K, meanDevF p (finF fun _ => (b.h + b.l + b.c) / 3)
          (smaF q (finF fun _ => (b.h + b.l + b.c) / 3)) (k + 1) = .fin m := by
        rw [meanDevF]
        split
        · exact ⟨0, by simp⟩
        · have hp : 0 < p := by have := ok.1; omega
          have ha : (fun j => GoFloat.abs ((finF fun _ => (b.h + b.l + b.c) / 3 : Nat → XF K) j -.
              smaF q (finF fun _ => (b.h + b.l + b.c) / 3) (k + 1))) = finF fun _ => 0 := by
            funext j
            rw [sma_still hq]
            simp [finF, XF.abs_fin']
          rw [ha, accum_fin, fl_nat, div_fin (natCast_ne hp)]
          exact ⟨_, rfl⟩
      obtain ⟨m, hm⟩ := hm
      rw [hm, sma_still hq]
      simp only [finF, sub_fin, sub_self, lit_fin, mul_fin, div_fin_eq]
      split
      · right; simp [infSign]
      · left; simp

theorem aiCci_still (p : Nat) (h : Still b it) : HoldsFrom 1 (AiCCI (p : Int)) it :=
  quiet_pair (AiCCI.signals p) h fun x n ok hn hc k => by
    refine cciRule_null (Or.inl ?_)
    have hd : devF p (cl x) (k + 1) = .fin 0 := by
      rw [devF]
      split
      · simp
      · next hp =>
        have hp : 0 < p := by omega
        have ha : (fun j => GoFloat.abs (cl x j -. accum (cl x) (k + 1 + 1 - p) p /. fl p)) = finF fun _ => 0 := by
          funext j
          rw [hc.cl, accum_fin, fl_nat, div_fin (natCast_ne hp)]
          have : (p : K) ≠ 0 := natCast_ne hp
          simp [finF, XF.abs_fin', this]
        rw [ha, accum_fin, fl_nat, div_fin (natCast_ne hp)]
        simp
    simp [AiCCI.out, aiCciF, hd]

theorem bandRule_self {u v : Band (XF K)} (h : u.middle = v.middle) (c : XF K) : Band.rule u v c c = Hold := by
  have a1 := and_asymm (ltAsymm_XF (K := K)) v.middle c
  have a2 := and_asymm (ltAsymm_XF (K := K)) c v.middle
  simp only [Band.rule, h, gt, a1, a2, Bool.false_eq_true, if_false]

theorem donchian_still (p : Nat) (h : Still b it) : HoldsFrom 1 (Donchian (p : Int)) it :=
  quiet_close (Donchian.signals p) h fun x n ok hn hc k => by
    have hp : 0 < p := by rcases ok with h | h <;> omega
    refine bandRule_self ?_ _
    simp [Donchian.out, hc.cl, max_still hp, min_still hp, finF]

theorem keltner_still (p : Nat) (h : Still b it) : HoldsFrom 1 (Keltner (p : Int)) it :=
  quiet_close (Keltner.signals p) h fun x n _ _ hc k => by
    refine bandRule_self ?_ _
    simp [Keltner.out, hc.cl, ema_still, finF]

theorem mid_still {x} {n : Nat} (hc : Cols n x (fun _ => b)) {p q : Nat} (hp : 0 < p) (hq : 0 < q) :
    midHL p q x = finF fun _ => (b.h + b.l) * (1 / 2) := by
  funext i
  rw [midHL, hc.lo, hc.hi, max_still hp, min_still hq]
  simp [finF, div_fin]

theorem ichimoku_still (p q r : Nat) (h : Still b it) : HoldsFrom p (Ichimoku (p : Int) q r) it := by
  intro s hs' i hi hl
  obtain ⟨x, hx, hc⟩ := h.cols
  obtain ⟨⟨hp, hq, _⟩, rfl⟩ := signals_inv (Ichimoku.signals p q r) hx hs'
  rw [tab_length] at hl
  have hp : 0 < p := by rcases hp with h | h <;> omega
  have hq : 0 < q := by rcases hq with h | h <;> omega
  rw [tab_getElem?_lt hl, ichiSide, if_neg (by omega)]
  simp only [Ichimoku.rule, Ichimoku.out, Int.toNat_natCast, mid_still hc (show 0 < 9 by omega) hp, hc.cl,
    mid_still hc (show 0 < 26 by omega) (show 0 < 26 by omega), mid_still hc hq hq, finF, gt]
  generalize ((XF.fin ((b.h + b.l) * (1 / 2)) : XF K) +. XF.fin ((b.h + b.l) * (1 / 2))) *. (fl 1 /. fl 2) = u
  have a1 := and_asymm (ltAsymm_XF (K := K)) u (XF.fin b.c)
  have a2 := and_asymm (ltAsymm_XF (K := K)) (XF.fin b.c) u
  rw [Bool.and_eq_false_iff] at a1 a2
  rcases a1 with h | h <;> rcases a2 with h' | h' <;> simp [h, h']


/-! ### Accumulation/distribution: a ramp and its averages -/

theorem adVal_still {x} {n : Nat} (hc : Cols n x (fun _ => b)) (hb : b.WF) :
    ∃ w : K, ∀ i, adF x i = .fin ((i + 1) * w) := by
  have key : (∃ w : K, ∀ i, adVal x i = .fin w) ∨ ∀ i, adVal x i = .nan := by
    by_cases hl : b.h = b.l
    · right
      intro i
      have h1 : b.c = b.l := le_antisymm (hb.2.2.2.trans hl.le) hb.2.2.1
      simp [adVal, hc.cl, hc.lo, hc.hi, hc.vo, finF, hl, h1, div_fin_eq, infSign]
      rfl
    · left
      refine ⟨b.v * ((b.c - b.l - (b.h - b.c)) / (b.h - b.l)), fun i => ?_⟩
      simp [adVal, hc.cl, hc.lo, hc.hi, hc.vo, finF, div_fin (sub_ne_zero.mpr hl)]
  rcases key with ⟨w, hw⟩ | hw
  · refine ⟨w, fun i => ?_⟩
    induction i with
    | zero => simp [adF, hw]
    | succ k ih => simp [adF, hw, ih]; ring
  · refine ⟨0, fun i => ?_⟩
    induction i with
    | zero => simp [adF, hw]
    | succ k ih => simp [adF, hw, ih]

/-- How far the exponential average of the ramp `1, 2, 3, …` lags behind it. -/
def lag (p : Nat) : Nat → K
  | 0 => 0
  | k + 1 => ((p : K) - 1) / (p + 1) * (lag p k + 1)

theorem emaK_ramp (p : Nat) (w : K) (i : Nat) : emaK p (fun i => ((i : K) + 1) * w) i = (i + 1 - lag p i) * w := by
  have hp : (p : K) + 1 ≠ 0 := by positivity
  induction i with
  | zero => simp [emaK, lag]
  | succ k ih =>
    rw [emaK, ih, lag]
    field_simp
    push_cast
    ring

theorem ratio_mono {p q : Nat} (hp : 1 ≤ p) (h : p ≤ q) :
    0 ≤ ((p : K) - 1) / (p + 1) ∧ ((p : K) - 1) / (p + 1) ≤ ((q : K) - 1) / (q + 1) := by
  have h1 : (1 : K) ≤ p := by exact_mod_cast hp
  have h2 : (p : K) ≤ q := by exact_mod_cast h
  refine ⟨div_nonneg (by linarith) (by linarith), ?_⟩
  rw [div_le_div_iff₀ (by linarith) (by linarith)]
  nlinarith

theorem lag_mono {p q : Nat} (hp : 1 ≤ p) (h : p ≤ q) (i : Nat) : 0 ≤ lag (K := K) p i ∧ lag (K := K) p i ≤ lag q i := by
  obtain ⟨h0, h1⟩ := ratio_mono (K := K) hp h
  induction i with
  | zero => simp [lag]
  | succ k ih =>
    refine ⟨mul_nonneg h0 (by linarith [ih.1]), mul_le_mul h1 (by linarith [ih.2]) (by linarith [ih.1]) (h0.trans h1)⟩

/-- A line that keeps its side of zero does not cross it. -/
theorem crossZero_fin {v w : K} (h : 0 ≤ v * w) : crossRule (XF.fin v) (fl 0) (.fin w) (fl 0) = Hold := by
  have h1 : ¬ (0 < v ∧ w < 0) := fun ⟨a, b⟩ => absurd h (not_le.mpr (mul_neg_of_pos_of_neg a b))
  have h2 : ¬ (v < 0 ∧ 0 < w) := fun ⟨a, b⟩ => absurd h (not_le.mpr (mul_neg_of_neg_of_pos a b))
  simp [crossRule, gt, h1, h2]

theorem chaikin_still {p q : Nat} (hp : 1 ≤ p) (hq : 1 ≤ q) (hb : b.WF) (h : Still b it) :
    HoldsFrom 1 (Chaikin (p : Int) q) it :=
  quiet_pair (Chaikin.signals p q) h fun x n _ _ hc k => by
    obtain ⟨w, hw⟩ := adVal_still hc hb
    have hw : adF x = finF fun i => ((i : K) + 1) * w := funext hw
    simp only [Chaikin.rule, Chaikin.out, hw, emaF_fin, emaK_ramp, subF_fin]
    refine crossZero_fin ?_
    have e : ∀ i : K, ∀ s t : K, (i + 1 - s) * w - (i + 1 - t) * w = (t - s) * w := fun i s t => by ring
    rw [e, e]
    have e2 : ∀ s t : K, s * w * (t * w) = s * t * (w * w) := fun s t => by ring
    rw [e2]
    refine mul_nonneg ?_ (mul_self_nonneg w)
    rcases le_total p q with h | h
    · exact mul_nonneg (sub_nonneg.mpr (lag_mono hp h _).2) (sub_nonneg.mpr (lag_mono hp h _).2)
    · exact mul_nonneg_of_nonpos_of_nonpos (sub_nonpos.mpr (lag_mono hq h _).2) (sub_nonpos.mpr (lag_mono hq h _).2)

/-! ### Kdj -/

theorem low_still (c : K) (a m : Nat) : lowF (finF fun _ => c) a m = .fin c := by
  induction m with
  | zero => rfl
  | succ m ih => simp [lowF, ih, finF]

theorem high_still (c : K) (a m : Nat) : highF (finF fun _ => c) a m = .fin c := by
  induction m with
  | zero => rfl
  | succ m ih => simp [highF, ih, finF, gt]

theorem kdj_still (p : Int) (h : Still b it) : HoldsFrom 1 (KDJ p) it :=
  quiet_pair (KDJ.signals p) h fun x n _ _ hc k => by
    have hr : ∃ r : K, ∀ i, kdjFull p i = true → rsvF p x i = .fin r := by
      by_cases hs : b.h - b.l < (1 / 1000000 : ℚ)
      · refine ⟨100, fun i hf => ?_⟩
        rw [rsvF, if_pos hf]
        simp only [hc.hi, hc.lo, hc.cl, low_still, high_still, sub_fin, lit_fin, lt_fin, decide_eq_true hs, if_true]
        simp
      · refine ⟨(b.c - b.l) / (b.h - b.l) * 100, fun i hf => ?_⟩
        have hne : b.h - b.l ≠ 0 := by
          intro h0
          rw [h0] at hs
          exact hs (by norm_num)
        rw [rsvF, if_pos hf]
        simp only [hc.hi, hc.lo, hc.cl, low_still, high_still, finF, sub_fin, lit_fin, lt_fin, decide_eq_false hs,
          div_fin hne]
        simp
    obtain ⟨r, hr⟩ := hr
    have key : ∃ u d : Nat → K, (∀ i, kF p x i = .fin (u i)) ∧ (∀ i, dF p x i = .fin (d i)) ∧
        ((∀ i, r ≤ u i ∧ u i ≤ d i) ∨ ∀ i, d i ≤ u i ∧ u i ≤ r) := by
      have hex : ∀ i, ∃ u d : K, kF p x i = .fin u ∧ dF p x i = .fin d ∧
          (r ≤ 50 → r ≤ u ∧ u ≤ d) ∧ (50 ≤ r → d ≤ u ∧ u ≤ r) := by
        intro i
        induction i with
        | zero => exact ⟨50, 50, by simp [kF], by simp [dF], fun h => ⟨h, le_rfl⟩, fun h => ⟨le_rfl, h⟩⟩
        | succ i ih =>
          obtain ⟨u, d, e1, e2, h1, h2⟩ := ih
          by_cases hf : kdjFull p (i + 1) = true
          · refine ⟨2 / 3 * u + 1 / 3 * r, 2 / 3 * d + 1 / 3 * (2 / 3 * u + 1 / 3 * r), ?_, ?_, ?_, ?_⟩
            · rw [kF, if_pos hf, e1, hr _ hf]
              simp [twoThirds, oneThird]
            · rw [dF, if_pos hf, e2, kF, if_pos hf, e1, hr _ hf]
              simp [twoThirds, oneThird]
            · intro h50
              obtain ⟨a1, a2⟩ := h1 h50
              constructor <;> linarith
            · intro h50
              obtain ⟨a1, a2⟩ := h2 h50
              constructor <;> linarith
          · exact ⟨50, 50, by rw [kF, if_neg hf]; simp, by rw [dF, if_neg hf]; simp, fun h => ⟨h, le_rfl⟩, fun h => ⟨le_rfl, h⟩⟩
      choose u d e1 e2 h1 h2 using hex
      refine ⟨u, d, e1, e2, ?_⟩
      rcases le_total r 50 with h | h
      · exact Or.inl fun i => h1 i h
      · exact Or.inr fun i => h2 i h
    obtain ⟨u, d, e1, e2, hs⟩ := key
    simp only [KDJ.rule, KDJ.out, e1, e2, gt, lt_fin]
    rcases hs with hs | hs
    · have a1 := not_lt.mpr (hs k).2
      have a2 := not_lt.mpr (hs (k + 1)).2
      simp [a1, a2]
    · have a1 := not_lt.mpr (hs k).1
      have a2 := not_lt.mpr (hs (k + 1)).1
      simp [a1, a2]

/-! ### StochasticHeat -/

/-- 1, but 0 in the warm-up of the weighted average. -/
def heatOn (kind : MAKind) (f i : Nat) : K :=
  match kind with
  | .wma => if i + 1 < f then 0 else 1
  | _ => 1

theorem heatOn_bound (kind : MAKind) (f i : Nat) : 0 ≤ heatOn (K := K) kind f i ∧ heatOn (K := K) kind f i ≤ 1 := by
  cases kind <;> simp only [heatOn]
  case wma => split <;> simp
  all_goals simp

theorem heatF_still {inc : Nat} (hi0 : 0 < inc) {f : Nat} (hf : 0 < f) (kind : MAKind) {x} {n : Nat}
    (hc : Cols n x (fun _ => b)) (j : Nat) :
    heatF kind inc f x (j + 1) = finF fun i => heatOn kind f i * ((b.c - b.l) / (b.h - b.l) * 100) := by
  have hj : 0 < (((j + 1 : Nat) : Int) * (inc : Int)).toNat := by
    rw [← Int.natCast_mul, Int.toNat_natCast]
    positivity
  cases kind <;> simp only [heatF, hc.cl, hc.hi, hc.lo, stochF_still hj, heatOn, one_mul, ema_still, Int.toNat_natCast,
    sma_still hf]
  funext i
  rw [wma_still hf]
  simp only [finF]
  split <;> simp

/-- The fast line is a multiple of a constant and the slow line a smaller multiple of it. -/
theorem heat_lines {inc : Nat} (hi0 : 0 < inc) {f s plot : Nat} (hplot : 0 < plot) (kind : MAKind) (hf : 0 < f)
    (hs : 0 < s) {x} {n : Nat} (hc : Cols n x (fun _ => b)) :
    ∃ (B : K) (e t : Nat → K), (∀ i, t i ≤ e i) ∧ heatFast inc f plot kind x = finF (fun i => e i * B) ∧
      heatSlow inc f s plot kind x = finF fun i => t i * B := by
  obtain ⟨A, hA⟩ : ∃ A : K, A = (b.c - b.l) / (b.h - b.l) * 100 := ⟨_, rfl⟩
  have hsum : ∀ i m, heatSum kind inc f x i m = .fin (heatOn kind f i * (((m : K) + 1) * A)) := by
    intro i m
    induction m with
    | zero =>
      have := congrFun (heatF_still hi0 hf kind hc 0) i
      simp only [heatSum, this, finF, ← hA]
      simp
    | succ m ih =>
      have := congrFun (heatF_still hi0 hf kind hc (m + 1)) i
      simp only [heatSum, ih, this, finF, ← hA, add_fin]
      refine congrArg XF.fin ?_
      push_cast
      ring
  have hp : (plot : K) ≠ 0 := natCast_ne hplot
  have hfast : heatFast inc f plot kind x = finF fun i => heatOn kind f i * (28 * A / 100) := by
    funext i
    have h100 : (100 : K) ≠ 0 := by norm_num
    have e100 : (fl 100 : XF K) = .fin 100 := by simp
    rw [heatFast, hsum, fl_nat, div_fin hp, e100, div_fin h100, mul_fin]
    refine congrArg XF.fin ?_
    field_simp
    push_cast
    ring
  have hw : wmaF s (finF fun i => heatOn kind f i * (28 * A / 100)) = finF fun i => (if i + 1 < s then 0 else
      (∑ j ∈ Finset.range s, heatOn kind f (i + 1 - s + j) * ((j : K) + 1)) / ((s : K) * (s + 1) / 2)) * (28 * A / 100) := by
    funext i
    rw [wmaF_fin hs]
    refine congrArg XF.fin ?_
    beta_reduce
    by_cases hi : i + 1 < s
    · rw [if_pos hi, if_pos hi, zero_mul]
    · rw [if_neg hi, if_neg hi, div_mul_eq_mul_div, Finset.sum_mul]
      congr 1
      exact Finset.sum_congr rfl fun _ _ => by ring
  have hs0 : (0 : K) < s := Nat.cast_pos.mpr hs
  have hle : ∀ i, (if i + 1 < s then 0 else (∑ j ∈ Finset.range s, heatOn kind f (i + 1 - s + j) * ((j : K) + 1)) /
      ((s : K) * (s + 1) / 2)) ≤ heatOn (K := K) kind f i := by
    intro i
    split
    · exact (heatOn_bound ..).1
    · next hi =>
      have hone : (∑ j ∈ Finset.range s, heatOn kind f (i + 1 - s + j) * ((j : K) + 1)) ≤
          heatOn kind f i * ∑ j ∈ Finset.range s, ((j : K) + 1) := by
        rw [Finset.mul_sum]
        refine Finset.sum_le_sum fun j hj => mul_le_mul_of_nonneg_right ?_ (by positivity)
        have hj := Finset.mem_range.mp hj
        cases kind <;> simp only [heatOn, le_refl]
        split <;> split
        · rfl
        · exact zero_le_one
        · omega
        · rfl
      have htri : ∑ j ∈ Finset.range s, ((j : K) + 1) = (s : K) * (s + 1) / 2 := by
        rw [Finset.sum_add_distrib, sum_pos]
        simp
        ring
      rw [htri] at hone
      rwa [div_le_iff₀ (by positivity)]
  cases kind
  case ema => exact ⟨28 * A / 100, fun _ => 1, fun _ => 1, fun _ => le_rfl, by simpa [heatOn] using hfast, by
    rw [heatSlow, hfast]; simp only [heatOn, one_mul, ema_still]⟩
  case sma => exact ⟨28 * A / 100, fun _ => 1, fun _ => 1, fun _ => le_rfl, by simpa [heatOn] using hfast, by
    rw [heatSlow, hfast]; simp only [heatOn, one_mul, Int.toNat_natCast, sma_still hs]⟩
  all_goals exact ⟨28 * A / 100, _, _, hle, hfast, by
    show wmaF (s : Int).toNat (heatFast inc f plot _ x) = _
    rw [hfast, Int.toNat_natCast, hw]⟩

theorem heat_still {inc f s plot : Nat} (hf : 0 < f) (hs : 0 < s) (hplot : 0 < plot) (kind : MAKind) (h : Still b it) :
    HoldsFrom 1 (Heat (inc : Int) f s plot kind) it :=
  quiet_pair (Heat.signals inc f s plot kind) h fun x n ok hn hc k => by
    have hi0 : 0 < inc := by rcases ok.1.1 with h | h <;> omega
    obtain ⟨B, e, t, hle, hfast, hslow⟩ := heat_lines hi0 hplot kind hf hs hc
    simp only [Heat.rule, Heat.out, hfast, hslow, finF, gt, lt_fin]
    rcases le_total 0 B with hB | hB
    · have a1 := not_lt.mpr (mul_le_mul_of_nonneg_right (hle k) hB)
      have a2 := not_lt.mpr (mul_le_mul_of_nonneg_right (hle (k + 1)) hB)
      simp [a1, a2]
    · have a1 := not_lt.mpr (mul_le_mul_of_nonpos_right (hle k) hB)
      have a2 := not_lt.mpr (mul_le_mul_of_nonpos_right (hle (k + 1)) hB)
      simp [a1, a2]

/-! ### Trailing stops -/

theorem ut_still (p : Nat) (a : Int) (hb : b.l ≤ b.h) (h : Still b it) : HoldsFrom 1 (UT (p : Int) a) it :=
  quiet_pair (UT.signals p a) h fun x n ok hn hc k => by
    obtain ⟨r, hr, hr0⟩ := atrI_fin a (fun _ => b.h) (fun _ => b.l) (fun _ => b.c)
    have hr0 := hr0 fun _ => hb
    rw [← hc.hi, ← hc.lo, ← hc.cl] at hr
    have hnn : ∀ i, 0 ≤ (p : K) * r i := fun i => mul_nonneg (Nat.cast_nonneg _) (hr0 i)
    have key : ∀ i, ∃ u : K, utF (p : Int) a x i = .fin u := by
      intro i
      induction i with
      | zero => exact ⟨0, by simp [utF]⟩
      | succ i ih =>
        obtain ⟨u, hu⟩ := ih
        rw [utF, hu, hr, hc.cl]
        simp only [UT.step, finF, fl_nat, mul_fin, sub_fin, add_fin, max_fin, min_fin]
        split
        · exact ⟨_, rfl⟩
        · split
          · exact ⟨_, rfl⟩
          · split <;> exact ⟨_, rfl⟩
    choose u hu using key
    have step : ∀ i, u (i + 1) = if u i < b.c then max (u i) (b.c - p * r (i + 1))
        else if b.c < u i then min (u i) (b.c + p * r (i + 1)) else b.c + p * r (i + 1) := by
      intro i
      have := hu (i + 1)
      rw [utF, hu, hr, hc.cl] at this
      simp only [UT.step, finF, fl_nat, mul_fin, sub_fin, add_fin, max_fin, min_fin, gt, lt_fin, Bool.and_self,
        decide_eq_true_eq] at this
      by_cases h1 : u i < b.c
      · rw [if_pos h1] at this ⊢
        exact (XF.fin_inj.mp this).symm
      · by_cases h2 : b.c < u i
        · rw [if_neg h1, if_pos h2] at this ⊢
          exact (XF.fin_inj.mp this).symm
        · rw [if_neg h1, if_neg h2, if_neg h1] at this
          rw [if_neg h1, if_neg h2]
          exact (XF.fin_inj.mp this).symm
    cases k with
    | zero => simp [UT.rule, UT.out, UT.zero, gt]
    | succ k =>
      simp only [UT.rule, UT.out, hu, hc.cl, finF, gt, lt_fin]
      have st := step (k + 1)
      have hn := hnn (k + 1 + 1)
      rcases lt_trichotomy (u (k + 1)) b.c with h | h | h
      · rw [if_pos h] at st
        have : ¬ b.c < u (k + 1 + 1) := by rw [st]; exact not_lt.mpr (max_le h.le (by linarith))
        simp [this, h.le]
      · simp [h]
      · rw [if_neg (not_lt.mpr h.le), if_pos h] at st
        have : ¬ u (k + 1 + 1) < b.c := by rw [st]; exact not_lt.mpr (le_min h.le (by linarith))
        simp [this, not_lt.mpr h.le]

/-! ### Supertrends on candles without a range -/

theorem trK_still (c : K) : trK (fun _ => c) (fun _ => c) (fun _ => c) = fun _ => 0 := by
  funext i
  cases i <;> simp [trK]

theorem rmaK_zero (p : Nat) (i : Nat) : rmaK (K := K) p (fun _ => 0) i = (0, 0) := by
  induction i with
  | zero => rfl
  | succ k ih => rw [rmaK, ih]; simp

theorem wilderK_zero (p : Nat) (i : Nat) : wilderK (K := K) p 0 (fun _ => 0) i = 0 := by
  induction i with
  | zero => rfl
  | succ k ih => rw [wilderK, ih]; simp

theorem atr_point (p : Int) (c : K) : atrI p (finF fun _ => c) (finF fun _ => c) (finF fun _ => c) = finF fun _ => 0 := by
  funext i
  rw [atrI]
  split
  · simp [finF]
  · split
    · rw [trF_fin, trK_still]
    · rw [atrF_fin (by omega), trK_still, rmaK_zero, wilderK_zero]
      simp [finF]

theorem natr_point (p : Int) (c : K) : natrI p (finF fun _ => c) (finF fun _ => c) (finF fun _ => c) = finF fun _ => 0 := by
  funext i
  rw [natrI]
  split
  · simp [finF]
  · split
    · rw [trF_fin, trK_still]
    · have hp : 0 < p.toNat := by omega
      rw [natrF, trF_fin, trK_still, sma_still hp]
      split
      · simp [finF]
      · split
        · simp [finF]
        · next h =>
          have h : c ≠ 0 := by simpa [finF] using h
          rw [show (finF (fun _ : Nat => (0 : K)) p.toNat) = .fin 0 from rfl, wilder_fin hp, wilderK_zero]
          simp [finF, div_fin h]

/-- The bar of a candle at one price. -/
def point (c v : K) : Bar K := ⟨c, c, c, c, v⟩

theorem st_point {c v : K} (p m : Int) (flag : Bool) (hc0 : 0 ≤ c) (h : Still (point c v) it) :
    HoldsFrom 1 (ST p m flag) it :=
  quiet_pair (ST.signals p m flag) h fun x n ok hn hc k => by
    have ha : stAtr p flag x = finF fun _ => 0 := by
      cases flag
      · have hp : 0 ≤ p := by rcases ok.2 rfl with h | h <;> omega
        show smaF p.toNat (natrI p (hi x) (lo x) (cl x)) = _
        rw [hc.hi, hc.lo, hc.cl]
        simp only [point, natr_point]
        rcases Nat.eq_zero_or_pos p.toNat with h0 | h0
        · rw [h0]; funext i; exact smaF_zero _ _
        · exact sma_still h0 0
      · show atrI p (hi x) (lo x) (cl x) = _
        rw [hc.hi, hc.lo, hc.cl]
        exact atr_point p c
    have key : ∀ i, ∃ u d : K, u ≤ c ∧ stF p m flag x i = ⟨.fin u, .fin d, .fin 1, .fin 0, .fin 0⟩ := by
      intro i
      induction i with
      | zero => exact ⟨0, 0, hc0, by simp [stF, ST.init]⟩
      | succ i ih =>
        obtain ⟨u, d, hu, e⟩ := ih
        have e2 : (fl 2 : XF K) = .fin 2 := by simp
        have hcc : (c + c) / 2 = c := by ring
        have h1 : ¬ (1 : K) = -1 := by norm_num
        rw [stF, e, ha, hc.hi, hc.lo, hc.cl]
        simp only [point, finF, add_fin, e2, div_fin (two_ne_zero (α := K)), hcc, fl_fin, mul_fin, mul_zero, ST.step,
          sub_fin, sub_zero, add_zero, Nz, isNaN_fin, Bool.false_eq_true, if_false, gt, lt_fin, eq_fin, max_fin,
          min_fin, Int.cast_one, Int.cast_neg, Int.cast_zero, decide_eq_false h1, Bool.false_and,
          decide_eq_false (not_lt.mpr hu), Bool.and_false, decide_eq_true_eq]
        by_cases h2 : u < c <;> by_cases h3 : c < d <;> simp only [h2, h3, if_true, if_false]
        · exact ⟨_, _, max_le le_rfl hu, rfl⟩
        · exact ⟨_, _, max_le le_rfl hu, rfl⟩
        · exact ⟨_, _, le_rfl, rfl⟩
        · exact ⟨_, _, le_rfl, rfl⟩
    obtain ⟨u, d, _, e⟩ := key (k + 1)
    simp [ST.rule₂, ST.rule, ST.out, e]

theorem pivotHigh_still (l r : Nat) (c : K) (i : Nat) :
    pivotHighF l r (finF fun _ => c) i = .fin 0 ∨ pivotHighF l r (finF fun _ => c) i = .fin c := by
  rw [pivotHighF]
  split
  · left; simp
  · split
    · left; simp
    · split
      · next m _ h =>
        right
        cases m <;> simp_all [finF, GoFloat.eq, XF.eq]
      · left; simp

theorem pivotLow_still (l r : Nat) (c : K) (i : Nat) :
    pivotLowF l r (finF fun _ => c) i = .fin 0 ∨ pivotLowF l r (finF fun _ => c) i = .fin c := by
  rw [pivotLowF]
  split
  · left; simp
  · split
    · left; simp
    · split
      · next m _ h =>
        right
        cases m <;> simp_all [finF, GoFloat.eq, XF.eq]
      · left; simp

theorem ppst_stepK {c z u d ph pl f : K} {t : Int} (hc0 : 0 ≤ c) (hz : z ≤ c) (hu : u ≤ c) (hph : ph ≤ c) (hpl : pl ≤ c)
    (ht : t = 0 ∨ t = 1) : ∃ (z' u' d' : K) (t' : Int), z' ≤ c ∧ u' ≤ c ∧ (t' = 0 ∨ t' = 1) ∧
      PPST.step (F := XF K) ⟨.fin z, .fin u, .fin d, t⟩ (.fin ph) (.fin pl) (.fin f *. .fin 0) (.fin c) (.fin c) =
        ⟨.fin z', .fin u', .fin d', t'⟩ := by
  obtain ⟨w, hw, hwc⟩ : ∃ w : K, (if (XF.fin ph) >. fl 0 then XF.fin ph else if (XF.fin pl) >. fl 0 then .fin pl
      else fl 0) = .fin w ∧ w ≤ c := by
    split
    · exact ⟨_, rfl, hph⟩
    · split
      · exact ⟨_, rfl, hpl⟩
      · exact ⟨0, by simp, hc0⟩
  obtain ⟨y, hy, hyc⟩ : ∃ y : K, (if !((XF.fin w : XF K) ==. fl 0) then
      (if (XF.fin z : XF K) ==. fl 0 then .fin w else (XF.fin z *. fl 2 +. .fin w) /. fl 3) else .fin z) = .fin y ∧ y ≤ c := by
    split
    · split
      · exact ⟨_, rfl, hwc⟩
      · have e3 : (fl 3 : XF K) = .fin 3 := by simp
        have e2 : (fl 2 : XF K) = .fin 2 := by simp
        refine ⟨(z * 2 + w) / 3, by rw [e2, e3, mul_fin, add_fin, div_fin (by norm_num)], ?_⟩
        rw [div_le_iff₀ (by norm_num)]
        linarith
    · exact ⟨_, rfl, hz⟩
  refine ⟨y, if u < c then max y u else y, if c < d then min y d else y, if d < c then 1 else t, hyc, ?_, ?_, ?_⟩
  · split
    · exact max_le hyc hu
    · exact hyc
  · split
    · exact Or.inr rfl
    · exact ht
  · unfold PPST.step
    simp only [hw, hy, mul_fin, mul_zero, sub_fin, add_fin, sub_zero, add_zero, gt, lt_fin, max_fin, min_fin,
      decide_eq_true_eq, if_neg (not_lt.mpr hu)]
    by_cases h2 : u < c <;> by_cases h3 : c < d <;> simp only [h2, h3, if_true, if_false]

theorem ppst_states {c v : K} (p a : Int) (f : K) (hc0 : 0 ≤ c) {x : Nat → Candle (XF K)} {n : Nat}
    (hc : Cols n x (fun _ => point c v)) (i : Nat) : ∃ (z u d : K) (t : Int), z ≤ c ∧ u ≤ c ∧ (t = 0 ∨ t = 1) ∧
        ppstF p a (XF.fin f) x i = ⟨.fin z, .fin u, .fin d, t⟩ := by
  have ha : atrI a (hi x) (lo x) (cl x) = finF fun _ => 0 := by
    rw [hc.hi, hc.lo, hc.cl]
    exact atr_point a c
  induction i with
  | zero => exact ⟨0, 0, 0, 0, hc0, hc0, Or.inl rfl, by simp [ppstF, PPST.init]⟩
  | succ i ih =>
    obtain ⟨z, u, d, t, hz, hu, ht, e⟩ := ih
    obtain ⟨ph, hph, hphc⟩ : ∃ ph : K, pivotHighF p.toNat p.toNat (hi x) (i + 1) = .fin ph ∧ ph ≤ c := by
      rw [hc.hi]
      rcases pivotHigh_still p.toNat p.toNat c (i + 1) with h | h
      · exact ⟨_, h, hc0⟩
      · exact ⟨_, h, le_rfl⟩
    obtain ⟨pl, hpl, hplc⟩ : ∃ pl : K, pivotLowF p.toNat p.toNat (lo x) (i + 1) = .fin pl ∧ pl ≤ c := by
      rw [hc.lo]
      rcases pivotLow_still p.toNat p.toNat c (i + 1) with h | h
      · exact ⟨_, h, hc0⟩
      · exact ⟨_, h, le_rfl⟩
    obtain ⟨z', u', d', t', h1, h2, h3, h4⟩ := ppst_stepK (d := d) (f := f) hc0 hz hu hphc hplc ht
    refine ⟨z', u', d', t', h1, h2, h3, ?_⟩
    have hcl : ∀ j, cl x j = XF.fin c := fun j => by rw [hc.cl]; rfl
    have hat : atrI a (hi x) (lo x) (cl x) (i + 1) = XF.fin 0 := by rw [ha]
    rw [ppstF, e, hph, hpl, hat, hcl, hcl, h4]

theorem ppst_point {c v : K} (p a : Int) (f : K) (hc0 : 0 ≤ c) (h : Still (point c v) it) :
    HoldsFrom 1 (PPST p a (XF.fin f)) it :=
  quiet_pair (PPST.signals p a (XF.fin f)) h fun x n ok hn hc k => by
    obtain ⟨_, _, _, t, _, _, ht, e⟩ := ppst_states p a f hc0 hc k
    obtain ⟨_, _, _, t', _, _, ht', e'⟩ := ppst_states p a f hc0 hc (k + 1)
    have n1 : ¬ (t' = 1 ∧ t = -1) := by omega
    have n2 : ¬ (t' = -1 ∧ t = 1) := by omega
    rw [ST.rule₂, PPST.out, PPST.emit, e, e']
    simp only [ST.rule, if_neg n1, if_neg n2]
    simp

/-! ### ProjectionOscillator -/

theorem slope_still {p : Nat} (hp : 2 ≤ p) (c : K) {j : Nat} (h1 : 1 ≤ j) :
    mlsM p absc (finF fun _ => c) j = .fin 0 := by
  obtain ⟨m, d, e, hbest⟩ := mls_slope hp (fun _ => c) h1
  have hb := hbest (j + 1) (by omega)
  have h0 : ∀ pts : List (K × K), (∀ q ∈ pts, q.2 = c) → ptsErr pts 0 c = 0 := by
    intro pts h
    rw [ptsErr]
    refine List.sum_eq_zero fun w hw => ?_
    obtain ⟨q, hq, rfl⟩ := List.mem_map.mp hw
    rw [h q hq]
    ring
  have hnn : ∀ (pts : List (K × K)) (m b : K), 0 ≤ ptsErr pts m b := by
    intro pts m b
    refine List.sum_nonneg fun w hw => ?_
    obtain ⟨q, _, rfl⟩ := List.mem_map.mp hw
    positivity
  have hz := h0 (window p j (tab (j + 1) fun k => ((k : K), c))) (by
    intro q hq
    obtain ⟨i, _, rfl⟩ := mem_tab.mp (List.mem_of_mem_take (List.mem_of_mem_drop hq))
    rfl)
  have hm := hb 0 c
  rw [hz] at hm
  have := hm.2 (le_antisymm (hnn _ _ _) hm.1)
  rw [e, this.1]

theorem proj_still {p : Nat} (hp : 2 ≤ p) {x} {n : Nat} (hc : Cols n x (fun _ => b)) :
    projF p x = finF fun i => if i < p then 0 else (b.c - b.l) / (b.h - b.l) * 100 := by
  have hhi0 : projHi p x 0 = .nan := by
    rw [projHi, hc.hi, mls_first (by omega)]; rfl
  have hlo0 : projLo p x 0 = .nan := by
    rw [projLo, hc.lo, mls_first (by omega)]; rfl
  have hhi : (fun j => projHi p x (j + 1)) = finF fun _ => b.h := by
    funext j
    rw [projHi, hc.hi, slope_still hp _ (by omega)]
    simp [absc, finF]
  have hlo : (fun j => projLo p x (j + 1)) = finF fun _ => b.l := by
    funext j
    rw [projLo, hc.lo, slope_still hp _ (by omega)]
    simp [absc, finF]
  funext i
  simp only [finF]
  by_cases h : i < p
  · rw [projF, (maxF_nan (by omega) hhi0 i).1 h, if_pos h]
    have h1 : ∀ b : XF K, subF .nan b = .nan := fun b => by cases b <;> rfl
    have h2 : ∀ a : XF K, safeDiv a .nan = .fin 0 := fun a => by
      have : a /. .nan = .nan := by cases a <;> rfl
      rw [safeDiv, this]
      simp
    rw [h1, h2]
  · rw [projF, (maxF_nan (by omega) hhi0 i).2 (by omega), minF_nan (by omega) hlo0 i (by omega), hhi, hlo,
      max_still (by omega), min_still (by omega), hc.cl, if_neg h]
    simp only [finF, subF_fin, fl_fin, mul_fin]
    rw [safeDiv_fin_eq]
    congr 1
    push_cast; ring

theorem projection_point {c v : K} {p q : Nat} (hp : 2 ≤ p) (h : Still (point c v) it) :
    HoldsFrom 1 (Projection (p : Int) q) it :=
  quiet_pair (Projection.signals p q) h fun x n ok hn hc k => by
    have e : projF p x = finF fun _ => 0 := by
      rw [proj_still hp hc]
      simp [point]
    simp only [Projection.rule, Projection.out, Int.toNat_natCast, e, ema_still, gt, lt_irrefl_XF, Bool.false_eq_true,
      if_false]

/-! ### The other strategies -/

theorem camarilla_still (p : Nat) (day : Int → Int) (other : Item (XF K)) (h : Still b it) {s : List Side}
    (hs : camarillaSignals p day other it = .ok s) : ∀ i, i < s.length → s[i]? = some Hold := by
  intro i hl
  obtain ⟨x, hx, hc⟩ := h.cols
  cases hnd : (Camarilla p).data other with
  | error e =>
    obtain ⟨y, hy⟩ := candles_tab other
    have := ((Camarilla.makes (F := XF K) p).yields other _ y hy).1 trivial
    rw [hnd] at this
    cases this
  | ok nd =>
    rw [camarillaSignals_eq p day hx hnd] at hs
    cases hs
    rw [tab_length] at hl
    rw [tab_getElem?_lt hl]
    simp only [Camarilla.out, getCamarilla, hc.cl, ema_still, Camarilla.rule]
    split
    · rfl
    · simp only [gt, lt_irrefl_XF, Bool.false_and, Bool.false_eq_true, if_false]

end strategies

section real
variable {b : Bar ℝ} {it : Item (XF ℝ)}

theorem boll_still (p q : Int) (h : Still b it) : HoldsFrom 1 (Boll p q) it :=
  quiet_close (Boll.signals p q) h fun x n ok hn hc k => by
    obtain ⟨p, rfl⟩ := Int.eq_ofNat_of_zero_le (a := p) (by rcases ok with h | h <;> omega)
    have hp : 0 < p := by rcases ok with h | h <;> omega
    have hu : (Boll.out (p : Int) x (k + 1)).upper = .fin b.c := by
      have hS : ∀ k, bollS p (cl x) k = .fin ((Min.min k (p - 1) : Nat) * (b.c * b.c)) := by
        intro k
        induction k with
        | zero => simp [bollS]
        | succ k ih =>
          rw [bollS, ih, hc.cl]
          split
          · rw [show Min.min k (p - 1) = k by omega, show Min.min (k + 1) (p - 1) = k + 1 by omega]
            simp only [finF, mul_fin, add_fin]
            refine congrArg XF.fin ?_
            push_cast; ring
          · rw [show Min.min k (p - 1) = p - 1 by omega, show Min.min (k + 1) (p - 1) = p - 1 by omega]
            simp only [finF, mul_fin, add_fin, sub_fin]
            refine congrArg XF.fin ?_
            ring
      have hd : dmaF p (cl x) (k + 1) = .fin 0 := by
        rw [dmaF]
        split
        · simp
        · rw [hS, hc.cl, sma_still hp, show Min.min (k + 1) (p - 1) = p - 1 by omega]
          have hne : (p : ℝ) ≠ 0 := natCast_ne hp
          have e : (((p - 1 : Nat) : ℝ) * (b.c * b.c) + b.c * b.c) / p - b.c * b.c = 0 := by
            rw [Nat.cast_sub (by omega)]
            field_simp
            push_cast; ring
          simp only [finF, mul_fin, add_fin, fl_nat, div_fin hne, sub_fin]
          rw [e, sqrt_fin le_rfl, Real.sqrt_zero]
      show smaF (p : Int).toNat (cl x) (k + 1) +. dmaF (p : Int).toNat (cl x) (k + 1) = _
      rw [Int.toNat_natCast, hd, hc.cl, sma_still hp]
      simp [finF]
    simp [Boll.rule, hu, gt]

theorem mfi_still (p : Nat) (hb : 0 ≤ (b.h + b.l + b.c) / 3 * b.v) (h : Still b it) : HoldsFrom 1 (MFI (p : Int)) it :=
  quiet_pair (MFI.signals p) h fun x n ok hn hc k => by
    have hr : rawF x = finF fun _ => (b.h + b.l + b.c) / 3 * b.v := by
      funext i
      rw [rawF, hc.lo, hc.hi, hc.cl, hc.vo]
      simp [finF, div_fin]
    have hf : flowF x = finF fun _ => (b.h + b.l + b.c) / 3 * b.v := by
      funext i
      have h1 : (subF (rawF x i) (shiftF 1 (fl 0) (rawF x) i) >=. fl 0) = true := by
        rw [hr, shiftF]
        split
        · simp only [finF, fl_fin, Int.cast_zero, subF_fin, sub_zero, ge, le_fin, decide_eq_true_eq]
          exact hb
        · simp [finF, fl_fin, subF_fin, ge]
      rw [flowF, if_pos h1, hr]
      simp [finF]
    have hneg : (fun j => (if flowF x j <. fl 0 then flowF x j else fl 0) *. fl (-1)) = finF fun _ : Nat => (0 : ℝ) := by
      funext j
      rw [hf]
      simp only [finF, fl_fin, Int.cast_zero, lt_fin, decide_eq_false (not_lt.mpr hb)]
      simp
    have hpos : (fun j => if flowF x j >. fl 0 then flowF x j else fl 0) =
        finF fun _ : Nat => if 0 < (b.h + b.l + b.c) / 3 * b.v then (b.h + b.l + b.c) / 3 * b.v else 0 := by
      funext j
      rw [hf]
      simp only [finF, fl_fin, Int.cast_zero, gt, lt_fin, decide_eq_true_eq]
      split <;> rfl
    have hv : ∀ i, mfiF p x i = GoMath.pow (.fin 0 +. fl 1) (fl (-1)) *. fl (-100) +. fl 100 := by
      intro i
      rw [mfiF, hneg, hpos, runSum_fin, runSum_fin]
      simp only [psum_still, mul_zero, sub_zero, safeDiv_zero]
    simp only [MFI.rule, MFI.out, Int.toNat_natCast, hv, gt]
    generalize GoMath.pow ((XF.fin 0 : XF ℝ) +. fl 1) (fl (-1)) *. fl (-100) +. fl 100 = w
    have a1 := and_asymm (ltAsymm_XF (K := ℝ)) w (fl 10)
    have a2 := and_asymm (ltAsymm_XF (K := ℝ)) (fl 90) w
    simp only [a1, a2, Bool.false_eq_true, if_false]

end real

end Verif.Props
