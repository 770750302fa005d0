import Verif.Props.StillSides
import Verif.Props.FusedRange

/-!
# A market that does not move, in any arithmetic and in float64 (C126)

Exact arithmetic is not needed for the strategies whose lines are window extremes, nor for the two built on Wilder's
relative strength, where every number computed from the zero price changes is a zero (or the `0/0` that `Rsi` and the
division helper catch).
-/

set_option linter.unusedSectionVars false

namespace Verif.Props
open Verif Verif.Klines Verif.Ta Verif.Ind GoFloat

/-- All candles of `it` hold the same five numbers. -/
def Unmoved {F : Type} (it : Item F) : Prop :=
  ∀ a ∈ it.candles, ∀ b ∈ it.candles,
    a.open_ = b.open_ ∧ a.high = b.high ∧ a.low = b.low ∧ a.close = b.close ∧ a.volume = b.volume

section any
variable {F : Type} [GoFloat F]

/-- The columns of an unmoved series are constant. -/
theorem Unmoved.cols {it : Item F} (h : Unmoved it) (hn : it.candles ≠ []) :
    ∃ (x : Nat → Candle F) (c : Candle F), it.candles = tab it.candles.length x ∧ c ∈ it.candles ∧
      (∀ i, hi x i = c.high) ∧ (∀ i, lo x i = c.low) ∧ ∀ i, cl x i = c.close := by
  obtain ⟨x, hx⟩ := candles_tab it
  have hl : 0 < it.candles.length := List.length_pos_iff.mpr hn
  have h0 : x 0 ∈ it.candles := by rw [hx]; exact mem_tab.mpr ⟨0, hl, rfl⟩
  have key : ∀ i, it.candles.length ≤ i ∨ x i ∈ it.candles := fun i => by
    by_cases hi : i < it.candles.length
    · right; rw [hx]; exact mem_tab.mpr ⟨i, hi, rfl⟩
    · left; omega
  refine ⟨fun i => if i < it.candles.length then x i else x 0, x 0,
    hx.trans (tab_ext fun i hi => by simp [hi]), h0, ?_, ?_, ?_⟩
  all_goals
    intro i
    simp only [Ind.hi, Ind.lo, Ind.cl]
    split
    · next hi =>
      have := h _ ((key i).resolve_left (by omega)) _ h0
      simp [this]
    · rfl

theorem max_unmoved {f : Nat → F} {c : F} (h : ∀ i, f i = c) (p i : Nat) : maxF p f i = c :=
  maxF_all (P := fun v => v = c) h p i

theorem min_unmoved {f : Nat → F} {c : F} (h : ∀ i, f i = c) (p i : Nat) : minF p f i = c :=
  minF_all (P := fun v => v = c) h p i

/-- **C126 (any arithmetic).** Whatever sums, products and quotients return and however they round, as long as `<` is
asymmetric: on a series whose candles are all equal, `DonchianChannel`, `WilliamsR` and `IchimokuCloud` hold at every
candle they judge, for all parameters. Their lines are made of window extremes, which are one of the numbers put in. -/
theorem C126_any_arithmetic (ha : LtAsymm F) {it : Item F} (h : Unmoved it) :
    (∀ p : Int, HoldsFrom 1 (Donchian p) it) ∧ (∀ p : Int, HoldsFrom 1 (Williams p) it) ∧
      ∀ p q r : Nat, HoldsFrom p (Ichimoku (p : Int) q r) it := by
  refine ⟨fun p s hs i hi hl => ?_, fun p s hs i hi hl => ?_, fun p q r s hs i hi hl => ?_⟩
  · by_cases hn : it.candles = []
    · obtain ⟨-, rfl⟩ := signals_inv (n := 0) (x := fun _ => Candle.zero 0) (Donchian.signals p) (by rw [hn]; rfl) hs
      simp at hl
    obtain ⟨x, c, hx, -, h1, h2, h3⟩ := h.cols hn
    obtain ⟨hok, rfl⟩ := signals_inv (Donchian.signals p) hx hs
    rw [tab_length] at hl
    rw [tab_getElem?_lt hl]
    obtain ⟨k, rfl⟩ : ∃ k, i = k + 1 := ⟨i - 1, by omega⟩
    refine congrArg some ?_
    show Band.rule _ _ (cl x k) (cl x (k + 1)) = _
    have a1 := and_asymm ha ((c.close +. c.close) *. (fl 1 /. fl 2)) c.close
    have a2 := and_asymm ha c.close ((c.close +. c.close) *. (fl 1 /. fl 2))
    simp only [Band.rule, Donchian.out, max_unmoved h3, min_unmoved h3, h3, gt, a1, a2, Bool.false_eq_true, if_false]
  · by_cases hn : it.candles = []
    · obtain ⟨-, rfl⟩ := signals_inv (n := 0) (x := fun _ => Candle.zero 0) (Williams.signals p) (by rw [hn]; rfl) hs
      simp at hl
    obtain ⟨x, c, hx, -, h1, h2, h3⟩ := h.cols hn
    obtain ⟨hok, rfl⟩ := signals_inv (Williams.signals p) hx hs
    rw [tab_length] at hl
    rw [tab_getElem?_lt hl]
    obtain ⟨k, rfl⟩ : ∃ k, i = k + 1 := ⟨i - 1, by omega⟩
    refine congrArg some ?_
    show Williams.rule (Williams.out p x k) (Williams.out p x (k + 1)) = _
    have e : williamsF p x (k + 1) = williamsF p x k := by
      simp only [williamsF, max_unmoved h1, min_unmoved h2, h3]
    have a1 := and_asymm ha (williamsF p x k) (fl (-80))
    have a2 := and_asymm ha (fl (-20)) (williamsF p x k)
    simp only [Williams.rule, Williams.out, e, gt, a1, a2, Bool.false_eq_true, if_false]
  · by_cases hn : it.candles = []
    · obtain ⟨-, rfl⟩ := signals_inv (n := 0) (x := fun _ => Candle.zero 0) (Ichimoku.signals p q r) (by rw [hn]; rfl) hs
      simp at hl
    obtain ⟨x, c, hx, -, h1, h2, h3⟩ := h.cols hn
    obtain ⟨hok, rfl⟩ := signals_inv (Ichimoku.signals p q r) hx hs
    rw [tab_length] at hl
    rw [tab_getElem?_lt hl, ichiSide, if_neg (by omega)]
    have e : ∀ a b j, midHL a b x j = (c.high +. c.low) *. (fl 1 /. fl 2) := fun a b j => by
      simp only [midHL, max_unmoved h1, min_unmoved h2]
    simp only [Ichimoku.rule, Ichimoku.out, e, h3, gt]
    generalize (c.high +. c.low) *. (fl 1 /. fl 2) = m
    have a1 := and_asymm ha m c.close
    have a2 := and_asymm ha c.close m
    rw [Bool.and_eq_false_iff] at a1 a2
    rcases a1 with h | h <;> rcases a2 with h' | h' <;> simp [h, h']

end any

/-- Float64 and fusing processors are such arithmetics. -/
example : LtAsymm B64 := ltAsymm_B64

/-- The market at 49.3 of `C126_boll_float64_refuted`. -/
example : Unmoved (item64 (List.replicate 22 ⟨49.3, 49.3, 49.3, 49.3, 1⟩)) ∧
    (Donchian 20).signals (item64 (List.replicate 22 ⟨49.3, 49.3, 49.3, 49.3, 1⟩)) = .ok (Buy :: List.replicate 21 Hold) := by
  refine ⟨fun a ha b hb => ?_, by decide +kernel⟩
  simp only [item64, List.map_replicate, List.mem_replicate] at ha hb
  rw [ha.2, hb.2]
  simp

/-! ## Relative strength in float64 -/

/-- One of the two zeros. -/
def IsZero64 (v : B64) : Prop := v.val = .fin 0

theorem zero_op {a b : B64} (ha : IsZero64 a) (hb : IsZero64 b) :
    IsZero64 (a +. b) ∧ IsZero64 (a -. b) ∧ IsZero64 (subF a b) := by
  have e : ∀ q : ℚ, q = 0 → round64 q = .fin 0 := fun q h => by rw [h]; exact round64_rep srep_zero
  have hm : (b *. fl (-1)).val = .fin 0 := by
    have h1 : (fl (-1) : B64).val = .fin (-1) := by simpa using B64.val_fl (-1) (by norm_num)
    rw [B64.val_mul hb h1]; exact e _ (by norm_num)
  refine ⟨?_, ?_, ?_⟩
  · rw [IsZero64, B64.val_add ha hb]; exact e _ (by norm_num)
  · rw [IsZero64, B64.val_sub ha hb]; exact e _ (by norm_num)
  · rw [subF, IsZero64, B64.val_add ha hm]; exact e _ (by norm_num)

theorem zero_mul64 {a b : B64} {q : ℚ} (ha : IsZero64 a) (hb : b.val = .fin q) : IsZero64 (a *. b) ∧ IsZero64 (b *. a) := by
  have e : ∀ q : ℚ, q = 0 → round64 q = .fin 0 := fun q h => by rw [h]; exact round64_rep srep_zero
  exact ⟨by rw [IsZero64, B64.val_mul ha hb]; exact e _ (by ring), by rw [IsZero64, B64.val_mul hb ha]; exact e _ (by ring)⟩

theorem zero_div64 {a b : B64} {q : ℚ} (ha : IsZero64 a) (hb : b.val = .fin q) (hq : q ≠ 0) : IsZero64 (a /. b) := by
  rw [IsZero64, B64.val_div ha hb hq, zero_div]; exact round64_rep srep_zero

theorem fl_nat64 {p : Nat} (hp : p ≤ 2 ^ 53) : (fl (p : Int) : B64).val = .fin p := by
  have := B64.val_fl (p : ℤ) (by rw [abs_of_nonneg (by omega)]; omega)
  simpa using this

theorem rsi_unmoved {p : Nat} (hp : p ≤ 2 ^ 53) {f : Nat → B64} {q : ℚ} {c : B64} (hc : c.val = .fin q) (h : ∀ i, f i = c)
    (i : Nat) : IsZero64 (rsiF p f i) := by
  have z0 : IsZero64 (fl 0) := by simpa [IsZero64] using B64.val_fl 0 (by norm_num)
  have hd : ∀ j k, IsZero64 (f j -. f k) := fun j k => by
    rw [h, h, IsZero64, B64.val_sub hc hc, sub_self]; exact round64_rep srep_zero
  have hlt : ∀ {a b : B64}, IsZero64 a → IsZero64 b → (a <. b) = false := fun ha hb => by
    rw [B64.lt_val ha hb]; simp
  have step : ∀ {g : B64 × B64} {d : B64}, IsZero64 g.1 → IsZero64 g.2 → IsZero64 d →
      IsZero64 (rsiStep g d).1 ∧ IsZero64 (rsiStep g d).2 := by
    intro g d h1 h2 h3
    rw [rsiStep, hlt h3 z0]
    exact ⟨(zero_op h1 h3).1, h2⟩
  have hinit : ∀ k, IsZero64 (rsiInit f k).1 ∧ IsZero64 (rsiInit f k).2 := by
    intro k
    induction k with
    | zero => exact ⟨z0, z0⟩
    | succ k ih => exact step ih.1 ih.2 (hd _ _)
  rw [rsiF]
  split
  · exact z0
  · next hp2 =>
    have hp0 : (p : ℚ) ≠ 0 := by
      have : p ≠ 0 := by omega
      exact_mod_cast this
    have hfp := fl_nat64 hp
    have hfq : (fl ((p : Int) - 1) : B64).val = .fin ((p - 1 : Nat) : ℚ) := by
      have := fl_nat64 (p := p - 1) (by omega)
      rwa [show ((p - 1 : Nat) : Int) = (p : Int) - 1 by omega] at this
    have hw : ∀ m, IsZero64 (rsiW p f m).1 ∧ IsZero64 (rsiW p f m).2 := by
      intro m
      induction m with
      | zero => exact ⟨zero_div64 (hinit p).1 hfp hp0, zero_div64 (hinit p).2 hfp hp0⟩
      | succ m ih =>
        have := step (g := ((rsiW p f m).1 *. fl ((p : Int) - 1), (rsiW p f m).2 *. fl ((p : Int) - 1)))
          (zero_mul64 ih.1 hfq).1 (zero_mul64 ih.2 hfq).1 (hd (p + m + 1) (p + m))
        exact ⟨zero_div64 this.1 hfp hp0, zero_div64 this.2 hfp hp0⟩
    have ht := (zero_op (hw (i - p)).1 (hw (i - p)).2).1
    rw [rsiVal]
    have l1 : (lit (-1 / 100000000000000) <. (rsiW p f (i - p)).1 +. (rsiW p f (i - p)).2) = true := by
      show XF.lt _ _ = true
      rw [ht]; decide +kernel
    have l2 : ((rsiW p f (i - p)).1 +. (rsiW p f (i - p)).2 <. lit (1 / 100000000000000)) = true := by
      show XF.lt _ _ = true
      rw [ht]; decide +kernel
    simp only [l1, l2, Bool.and_self, Bool.not_true, Bool.false_eq_true, if_false]
    exact z0

theorem ema_zero64 {p : Nat} (hp : p < 2 ^ 53) {f : Nat → B64} (h : ∀ i, IsZero64 (f i)) (i : Nat) : IsZero64 (emaF p f i) := by
  have e2 : (fl 2 : B64).val = .fin 2 := by simpa using B64.val_fl 2 (by norm_num)
  have em := B64.val_fl ((p : Int) - 1) (by rw [abs_le]; omega)
  have ep := B64.val_fl ((p : Int) + 1) (by rw [abs_le]; omega)
  induction i with
  | zero => exact h 0
  | succ i ih =>
    refine zero_div64 (zero_op (zero_mul64 (h _) e2).2 (zero_mul64 ih em).2).1 ep ?_
    have : (p : Int) + 1 ≠ 0 := by omega
    exact_mod_cast this

/-- **C126 (float64, relative strength).** On a series whose candles all have the same finite close, `Rsi` and `StochRsi`
with periods up to `2^53` hold at every candle but the first. -/
theorem C126_float64_rsi {it : Item B64} (h : Unmoved it) (hf : ∀ c ∈ it.candles, ∃ q, c.close.val = .fin q) :
    (∀ p : Nat, p ≤ 2 ^ 53 → HoldsFrom 1 (RSI (p : Int)) it) ∧
      ∀ k d r t : Nat, k < 2 ^ 53 → d < 2 ^ 53 → r ≤ 2 ^ 53 → HoldsFrom 1 (StochRSI (k : Int) d r t) it := by
  have hlt : ∀ {a b : B64} {u v : ℚ}, a.val = .fin u → b.val = .fin v → v ≤ u → (a <. b) = false := fun ha hb h => by
    rw [B64.lt_val ha hb]; simpa using h
  refine ⟨fun p hp s hs i hi hl => ?_, fun k d r t hk hd hr s hs i hi hl => ?_⟩
  · by_cases hn : it.candles = []
    · obtain ⟨-, rfl⟩ := signals_inv (n := 0) (x := fun _ => Candle.zero 0) (RSI.signals p) (by rw [hn]; rfl) hs
      simp at hl
    obtain ⟨x, c, hx, hc, -, -, h3⟩ := h.cols hn
    obtain ⟨q, hq⟩ := hf c hc
    obtain ⟨hok, rfl⟩ := signals_inv (RSI.signals p) hx hs
    rw [tab_length] at hl
    rw [tab_getElem?_lt hl]
    obtain ⟨k, rfl⟩ : ∃ k, i = k + 1 := ⟨i - 1, by omega⟩
    refine congrArg some ?_
    show RSI.rule (RSI.out p x k) (RSI.out p x (k + 1)) = _
    have z := rsi_unmoved hp hq h3 k
    have e20 : (fl 20 : B64).val = .fin 20 := by simpa using B64.val_fl 20 (by norm_num)
    have e80 : (fl 80 : B64).val = .fin 80 := by simpa using B64.val_fl 80 (by norm_num)
    simp only [RSI.rule, RSI.out, Int.toNat_natCast, gt, hlt e20 z (by norm_num), hlt e80 z (by norm_num), Bool.and_false,
      Bool.false_eq_true, if_false]
  · by_cases hn : it.candles = []
    · obtain ⟨-, rfl⟩ := signals_inv (n := 0) (x := fun _ => Candle.zero 0) (StochRSI.signals k d r t) (by rw [hn]; rfl) hs
      simp at hl
    obtain ⟨x, c, hx, hc, -, -, h3⟩ := h.cols hn
    obtain ⟨q, hq⟩ := hf c hc
    obtain ⟨hok, rfl⟩ := signals_inv (StochRSI.signals k d r t) hx hs
    rw [tab_length] at hl
    rw [tab_getElem?_lt hl]
    obtain ⟨j, rfl⟩ : ∃ j, i = j + 1 := ⟨i - 1, by omega⟩
    refine congrArg some ?_
    have hz := rsi_unmoved hr hq h3
    have z0 : IsZero64 (fl 0) := by simpa [IsZero64] using B64.val_fl 0 (by norm_num)
    have hst : ∀ i, IsZero64 (stochRsiF (r : Int) t x i) := by
      intro i
      rw [stochRsiF, Int.toNat_natCast, Int.toNat_natCast, stochF]
      have hmin := minF_all hz t i
      have hmax := maxF_all hz t i
      have h1 := (zero_op (hz i) hmin).2.2
      have h2 := (zero_op hmax hmin).2.2
      have hdiv : IsZero64 (safeDiv (subF (rsiF r (cl x) i) (minF t (rsiF r (cl x)) i))
          (subF (maxF t (rsiF r (cl x)) i) (minF t (rsiF r (cl x)) i))) := by
        rw [safeDiv]
        have : isNaN (subF (rsiF r (cl x) i) (minF t (rsiF r (cl x)) i) /.
            subF (maxF t (rsiF r (cl x)) i) (minF t (rsiF r (cl x)) i)) = true := by
          rw [B64.isNaN_val, B64.val_div_zero h1 h2, if_pos rfl]
        rw [this]
        exact z0
      have e100 : (fl 100 : B64).val = .fin 100 := by simpa using B64.val_fl 100 (by norm_num)
      exact (zero_mul64 hdiv e100).1
    have hK := ema_zero64 hk hst
    have hD := ema_zero64 hd hK
    show KD.rule (StochRSI.out k d r t x j) (StochRSI.out k d r t x (j + 1)) = _
    simp only [KD.rule, crossRule, StochRSI.out, gt, hlt (hK (j + 1)) (hD (j + 1)) le_rfl,
      hlt (hD (j + 1)) (hK (j + 1)) le_rfl, Bool.false_and, Bool.false_eq_true, if_false]

/-- The same market at 49.3: the closes are finite, and both strategies hold after the first candle. -/
example : (∀ c ∈ (item64 (List.replicate 22 ⟨49.3, 49.3, 49.3, 49.3, 1⟩)).candles, ∃ q, c.close.val = .fin q) ∧
    (RSI 14).signals (item64 (List.replicate 22 ⟨49.3, 49.3, 49.3, 49.3, 1⟩)) = .ok (Buy :: List.replicate 21 Hold) := by
  refine ⟨fun c hc => ?_, by decide +kernel⟩
  simp only [item64, List.map_replicate, List.mem_replicate] at hc
  rw [hc.2]
  exact ⟨3469179087958835 / 70368744177664, (B64.val_lit _).trans (by decide +kernel)⟩

end Verif.Props
