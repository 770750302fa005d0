import Verif.Go.Nan
import Verif.Props.Thresholds

/-!
# One corrupt value (C110, C111)

What a single NaN does to everything computed after it. Stated for every number type with the NaN rules of IEEE 754
(`NanLaw`: exact numbers and binary64).
-/

set_option linter.unusedSectionVars false

namespace Verif.Props
open Verif Verif.Klines Verif.Ta Verif.Ind GoFloat

section
variable {F : Type} [GoFloat F] [NanLaw F]

/-- From index `k` on, every entry is NaN. -/
def NanFrom (k : Nat) (out : List F) : Prop := ∀ i y, k ≤ i → out[i]? = some y → isNaN y = true

theorem nan_accum {x : Nat → F} {lo k : Nat} (h : isNaN (x (lo + k)) = true) :
    ∀ {c : Nat}, k < c → isNaN (accum x lo c) = true
  | c + 1, hc => by
    rw [accum]
    rcases Nat.lt_succ_iff_lt_or_eq.mp hc with hc | rfl
    · exact NanLaw.add_left _ (nan_accum h hc)
    · exact NanLaw.add_right _ h

theorem nan_runSum {x : Nat → F} {p k : Nat} (h : isNaN (x k) = true) :
    ∀ {m : Nat}, k < m → isNaN (runSum p x m) = true
  | m + 1, hm => by
    rw [runSum]
    have : isNaN (runSum p x m +. x m) = true := by
      rcases Nat.lt_succ_iff_lt_or_eq.mp hm with hm | rfl
      · exact NanLaw.add_left _ (nan_runSum h hm)
      · exact NanLaw.add_right _ h
    split
    · exact NanLaw.sub_left _ this
    · exact this

theorem nan_emaF {x : Nat → F} {p : Int} {k : Nat} (h : isNaN (x k) = true) :
    ∀ {i : Nat}, k ≤ i → isNaN (emaF p x i) = true
  | 0, hi => by rw [emaF]; rwa [Nat.le_zero.mp hi] at h
  | i + 1, hi => by
    rw [emaF]
    refine NanLaw.div_left _ ?_
    rcases Nat.lt_succ_iff_lt_or_eq.mp (Nat.lt_succ_of_le hi) with hi | rfl
    · exact NanLaw.add_right _ (NanLaw.mul_right _ (nan_emaF h (by omega)))
    · exact NanLaw.add_left _ (NanLaw.mul_right _ h)

theorem nan_rmaS {x : Nat → F} {p : Int} {k : Nat} (hk : 0 < k) (h : isNaN (x k) = true) :
    ∀ {i : Nat}, k ≤ i → isNaN (rmaS p x i).1 = true ∧ isNaN (rmaS p x i).2 = true
  | 0, hi => by omega
  | i + 1, hi => by
    have ih := fun h' : k ≤ i => nan_rmaS (p := p) hk h h'
    rw [rmaS]
    split
    · have : isNaN ((rmaS p x i).1 +. x (i + 1)) = true := by
        rcases Nat.lt_succ_iff_lt_or_eq.mp (Nat.lt_succ_of_le hi) with hi | rfl
        · exact NanLaw.add_left _ (ih (by omega)).1
        · exact NanLaw.add_right _ h
      exact ⟨this, NanLaw.div_left _ this⟩
    · have : isNaN ((rmaS p x i).2 *. fl (p - 1) +. x (i + 1)) = true := by
        rcases Nat.lt_succ_iff_lt_or_eq.mp (Nat.lt_succ_of_le hi) with hi | rfl
        · exact NanLaw.add_left _ (NanLaw.mul_left _ (ih (by omega)).2)
        · exact NanLaw.add_right _ h
      exact ⟨this, NanLaw.div_left _ this⟩

theorem nan_subF_left {a b : F} (h : isNaN a = true) : isNaN (subF a b) = true := NanLaw.add_left _ h
theorem nan_subF_right {a b : F} (h : isNaN b = true) : isNaN (subF a b) = true :=
  NanLaw.add_right _ (NanLaw.mul_left _ h)

theorem nan_smaF {x : Nat → F} {p k i : Nat} (h : isNaN (x k) = true) (hi : k ≤ i) : smaF p x i = fl 0 := by
  rw [smaF, smaFix, NanLaw.div_left _ (nan_runSum h (by omega))]
  simp

theorem nan_wsum0 {x : Nat → F} {k : Nat} (h : isNaN (x k) = true) : ∀ {m : Nat}, k < m → isNaN (wsum0 x m) = true
  | m + 1, hm => by
    rw [wsum0]
    rcases Nat.lt_succ_iff_lt_or_eq.mp hm with hm | rfl
    · exact NanLaw.add_left _ (nan_wsum0 h hm)
    · exact NanLaw.add_right _ (NanLaw.mul_left _ h)

theorem nan_wmaS {x : Nat → F} {p k : Nat} (h : isNaN (x k) = true) :
    ∀ {m : Nat}, k < p - 1 + m → isNaN (wmaS p x m).1 = true ∧ isNaN (wmaS p x m).2.1 = true
  | 0, hm => ⟨nan_wsum0 h (by omega), nan_accum (lo := 0) (k := k) (by simpa using h) (by omega)⟩
  | m + 1, hm => by
    simp only [wmaS]
    by_cases e : k = p - 1 + m
    · subst e
      have := NanLaw.sub_left (wmaS p x m).2.2 (NanLaw.add_right (wmaS p x m).2.1 h)
      exact ⟨NanLaw.sub_right _ this, this⟩
    · have ih := nan_wmaS h (m := m) (p := p) (by omega)
      have := NanLaw.sub_left (wmaS p x m).2.2 (NanLaw.add_left (x (p - 1 + m)) ih.2)
      exact ⟨NanLaw.sub_right _ this, this⟩

theorem nan_vTot {x : Nat → F} {p k : Nat} (h : isNaN (x k) = true) :
    ∀ {m : Nat}, k < p - 1 + m → isNaN (vTot p x m) = true
  | 0, hm => nan_accum (lo := 0) (k := k) (by simpa using h) (by omega)
  | m + 1, hm => by
    rw [vTot]
    refine NanLaw.sub_left _ ?_
    by_cases e : k = p - 1 + m
    · subst e; exact NanLaw.add_right _ h
    · exact NanLaw.add_left _ (nan_vTot h (by omega))

theorem nan_lrS {x : Nat → F} {p k : Nat} (h : isNaN (x k) = true) :
    ∀ {m : Nat}, k < p + m → isNaN (lrS p x m).2 = true
  | 0, hm => nan_accum (lo := 0) (k := k) (by simpa using h) (by omega)
  | m + 1, hm => by
    simp only [lrS]
    by_cases e : k = p + m
    · subst e; exact NanLaw.add_right _ (NanLaw.sub_left _ h)
    · exact NanLaw.add_left _ (nan_lrS h (by omega))

/-- A list with an entry at `k` is a table whose function has that value at `k`. -/
theorem tab_at {α : Type} {v : List α} {k : Nat} {a : α} (h : v[k]? = some a) :
    ∃ x : Nat → α, v = tab v.length x ∧ x k = a ∧ k < v.length := by
  have hk := (List.getElem?_eq_some_iff.mp h).1
  obtain ⟨x, hx⟩ := exists_tab v (by rintro rfl; simp at hk)
  refine ⟨x, hx, ?_, hk⟩
  rw [hx, tab_getElem?_lt hk] at h
  exact Option.some.inj h

theorem tab_entry {α : Type} {n i : Nat} {f : Nat → α} {y : α} (h : (tab n f)[i]? = some y) : y = f i ∧ i < n := by
  have hi : i < n := by simpa using (List.getElem?_eq_some_iff.mp h).1
  rw [tab_getElem?_lt hi] at h
  exact ⟨(Option.some.inj h).symm, hi⟩

/-- C110: a NaN at index `k` makes every later value of the exponential, the double exponential and (except at index 0,
which `Rma` never reads) the rolling average NaN, for every period. -/
theorem C110_exponential (p : Int) {v out : List F} {k : Nat} {a : F} (hv : v[k]? = some a) (ha : isNaN a = true) :
    (Ema p v = .ok out → NanFrom k out) ∧ (Dema p v = .ok out → NanFrom k out) ∧
      (0 < k → Rma p v = .ok out → NanFrom k out) := by
  obtain ⟨x, hx, rfl, hk⟩ := tab_at hv
  rw [hx, Ema_tab, Dema_tab, Rma_tab]
  refine ⟨fun h => ?_, fun h => ?_, fun h0 h => ?_⟩ <;> cases h <;> intro i y hi hy <;> obtain ⟨rfl, _⟩ := tab_entry hy
  · exact nan_emaF ha hi
  · exact nan_subF_left (NanLaw.mul_left _ (nan_emaF ha hi))
  · exact (nan_rmaS h0 ha hi).2

/-- C110: a NaN at index `k` makes every later rolling sum NaN, long after it has left the window; `Sma`, which replaces
NaN, is 0 for ever after. -/
theorem C110_running (p : Nat) {v out : List F} {k : Nat} {a : F} (hv : v[k]? = some a) (ha : isNaN a = true) :
    (Sum p v = .ok out → NanFrom k out) ∧ (Sma p v = .ok out → ∀ i, k ≤ i → i < v.length → out[i]? = some (fl 0)) := by
  obtain ⟨x, hx, rfl, hk⟩ := tab_at hv
  rw [hx, Sum_tab, Sma_tab, tab_length]
  refine ⟨fun h => ?_, fun h => ?_⟩ <;> cases h
  · intro i y hi hy
    obtain ⟨rfl, _⟩ := tab_entry hy
    exact nan_runSum ha (by omega)
  · intro i hi hn
    rw [tab_getElem?_lt hn, nan_smaF ha hi]

/-- C110: the weighted average, the variance and the regression lines keep running sums as well: a NaN at index `k` makes
every later value NaN (from the first full window on; `Wma` with period 1 copies its input and is the exception). -/
theorem C110_windows (p : Nat) {v out : List F} {k : Nat} {a : F} (hv : v[k]? = some a) (ha : isNaN a = true) :
    (2 ≤ p → Wma p v = .ok out → NanFrom (max k (p - 1)) out) ∧
      (1 ≤ p → Variance v p = .ok out → NanFrom (max k (p - 1)) out) ∧
      (1 ≤ p → LinearReg v p = .ok out ∨ LinearRegSlope v p = .ok out ∨ LinearRegIntercept v p = .ok out →
        NanFrom (max k (p - 1)) out) := by
  obtain ⟨x, hx, rfl, hk⟩ := tab_at hv
  rw [hx]
  refine ⟨fun hp h i y hi hy => ?_, fun hp h i y hi hy => ?_, fun hp h i y hi hy => ?_⟩
  · rw [Wma_tab p _ (by omega)] at h
    split at h
    · cases h
      obtain ⟨rfl, _⟩ := tab_entry hy
      rw [wmaF, if_neg (by omega), if_neg (by omega)]
      refine NanLaw.div_left _ ?_
      by_cases e : k = i
      · subst e; exact NanLaw.add_right _ (NanLaw.mul_left _ ha)
      · exact NanLaw.add_left _ (nan_wmaS ha (by omega)).1
    · cases h
  · rw [Variance_tab p _ (by omega)] at h
    split at h
    · cases h
      obtain ⟨rfl, _⟩ := tab_entry hy
      rw [varF, if_neg (by omega)]
      refine NanLaw.sub_left _ (NanLaw.div_left _ ?_)
      by_cases e : k = i
      · subst e; exact NanLaw.add_right _ (NanLaw.mul_left _ ha)
      · exact NanLaw.add_left _ (nan_vTot (x := fun j => x j *. x j) (NanLaw.mul_left _ ha) (by omega))
    · cases h
  · have hS : isNaN (lrS p x (i + 1 - p)).2 = true := nan_lrS ha (by omega)
    simp only [LinearReg, LinearRegSlope, LinearRegIntercept, linRegCore_tab _ p _ (show 0 < p by omega)] at h
    have slope : ∀ a b c d e : F, isNaN e = true → isNaN (lrSlope a b c d e) = true := fun _ _ _ _ _ h =>
      NanLaw.div_left _ (NanLaw.sub_right _ (NanLaw.mul_right _ h))
    have icept : ∀ a b c d e : F, isNaN e = true → isNaN (lrIntercept a b c d e) = true := fun _ _ _ _ _ h =>
      NanLaw.div_left _ (NanLaw.sub_left _ h)
    split at h
    · rcases h with h | h | h <;> cases h <;> obtain ⟨rfl, _⟩ := tab_entry hy <;> rw [lrF, if_neg (by omega)]
      · exact NanLaw.add_left _ (icept _ _ _ _ _ hS)
      · exact slope _ _ _ _ _ hS
      · exact icept _ _ _ _ _ hS
    · rcases h with h | h | h <;> cases h

end

section
variable {F : Type} [GoFloat F]

theorem accum_congr {x y : Nat → F} {lo : Nat} : ∀ {c : Nat}, (∀ j, lo ≤ j → j < lo + c → x j = y j) → accum x lo c = accum y lo c
  | 0, _ => rfl
  | c + 1, h => by rw [accum, accum, accum_congr fun j h1 h2 => h j h1 (by omega), h _ (by omega) (by omega)]

theorem exists_tabF (v : List F) : ∃ x : Nat → F, v = tab v.length x := by
  by_cases h : v = []
  · exact ⟨fun _ => fl 0, by rw [h]; rfl⟩
  · exact exists_tab v h

theorem tab_congr_at {n i : Nat} {f g : Nat → F} (h : i < n → f i = g i) : (tab n f)[i]? = (tab n g)[i]? := by
  rw [tab_getElem?, tab_getElem?]
  split
  · next hi => rw [h hi]
  · rfl

/-- C110: `MA`, `Dev` and `AiCoinCCI` compute every window afresh: whatever stands at index `k`, a value there cannot be told
from the results before `k` nor from those `p` or more candles later. (Two series that differ only at `k`.) -/
theorem C110_recover {p : Nat} (hp : 1 ≤ p) {v w : List F} (hl : v.length = w.length) {k : Nat}
    (h : ∀ i, i ≠ k → v[i]? = w[i]?) {i : Nat} (hi : i < k ∨ k + p ≤ i) {a b : List F} :
    (MA v p = .ok a → MA w p = .ok b → a[i]? = b[i]?) ∧ (Dev v p = .ok a → Dev w p = .ok b → a[i]? = b[i]?) ∧
      ∀ f, AiCoinCCI v p f = .ok a → AiCoinCCI w p f = .ok b → a[i]? = b[i]? := by
  obtain ⟨x, hx⟩ := exists_tabF v
  obtain ⟨y, hy⟩ := exists_tabF w
  rw [← hl] at hy
  generalize v.length = n at *
  subst hx hy
  have hxy : ∀ j, j < n → j ≠ k → x j = y j := fun j hj hjk => by
    have := h j hjk
    rw [tab_getElem?_lt hj, tab_getElem?_lt hj] at this
    exact Option.some.inj this
  have eMA : i < n → maF p x i = maF p y i := fun hn => by
    unfold maF
    split
    · rfl
    · rw [accum_congr fun j h1 h2 => hxy j (by omega) (by omega)]
  have eDev : i < n → devF p x i = devF p y i := fun hn => by
    unfold devF
    split
    · rfl
    · rw [accum_congr (x := x) (y := y) fun j h1 h2 => hxy j (by omega) (by omega)]
      congr 1
      exact accum_congr fun j h1 h2 => by rw [hxy j (by omega) (by omega)]
  simp only [MA_tab, Dev_tab, AiCoinCCI_tab]
  refine ⟨fun h1 h2 => ?_, fun h1 h2 => ?_, fun f h1 h2 => ?_⟩ <;> cases h1 <;> cases h2 <;> refine tab_congr_at fun hn => ?_
  · exact eMA hn
  · exact eDev hn
  · rw [aiCciF, aiCciF, eDev hn, eMA hn, hxy i hn (by omega)]

end

/-- C110: the sliding maximum does not recover: of `1, 5, NaN, 9, 2, 3` the maximum of the last three is NaN. (`Compare`
treats NaN as equal to everything, so taking NaN out of the search tree removes the 9.) -/
theorem C110_max_refuted : Max 3 [.fin 1, .fin 5, .nan, .fin 9, .fin 2, .fin 3] =
    .ok ([.fin 1, .fin 5, .fin 5, .fin 9, .fin 9, .nan] : List (XF ℚ)) := by decide +kernel

/-- The hypotheses of the C110 theorems: a NaN at index 2 of five values. -/
example : (([.fin 1, .fin 2, .nan, .fin 3, .fin 4] : List (XF ℚ))[2]?) = some .nan ∧ isNaN (.nan : XF ℚ) = true ∧
    Sma 2 ([.fin 1, .fin 2, .nan, .fin 3, .fin 4] : List (XF ℚ)) = .ok [.fin 1, .fin (3 / 2), .fin 0, .fin 0, .fin 0] ∧
    Ema 3 ([.fin 1, .fin 2, .nan, .fin 3, .fin 4] : List (XF ℚ)) = .ok [.fin 1, .fin (3 / 2), .nan, .nan, .nan] ∧
    MA ([.fin 1, .fin 2, .nan, .fin 3, .fin 4] : List (XF ℚ)) 2 = .ok [.fin 0, .fin (3 / 2), .nan, .nan, .fin (7 / 2)] := by
  decide +kernel

/-! ## Strategies -/

section
variable {F : Type} [GoFloat F]

/-- Strategies whose lines are averages of the close that remember every earlier close, with the first candle at which they
decide anything. -/
inductive Deaf : Strat F → Nat → Prop
  | macd (p q r : Int) : Deaf (MACD p q r) 1
  | apo (p q : Int) : Deaf (APO p q) 1
  | keltner (p : Int) : Deaf (Keltner p) 1
  | traderXO (p q : Int) : Deaf (XO p q) 0
  | rsi (p : Int) (hp : 2 ≤ p) : Deaf (RSI p) p.toNat
  | vegas (p s1 s2 l1 l2 : Int) : Deaf (Vegas p s1 s2 l1 l2) 11

variable [NanLaw F]

theorem nan_crossRule {a b pa pb : F} (h : isNaN a = true ∨ isNaN b = true) : crossRule a b pa pb = Hold := by
  have h1 : (a <. b) = false := h.elim (NanLaw.lt_left _) (NanLaw.lt_right _)
  have h2 : (b <. a) = false := h.elim (NanLaw.lt_right _) (NanLaw.lt_left _)
  simp [crossRule, GoFloat.gt, h1, h2]

theorem nan_rsiStep {gl : F × F} {d : F} (h : isNaN gl.1 = true ∨ isNaN d = true) : isNaN (rsiStep gl d).1 = true := by
  unfold rsiStep
  split
  · next hd =>
    rcases h with h | h
    · exact h
    · rw [NanLaw.lt_left _ h] at hd; cases hd
  · exact h.elim (NanLaw.add_left _) (NanLaw.add_right _)

theorem nan_diff {x : Nat → F} {k i : Nat} (h : isNaN (x k) = true) (e : k = i ∨ k = i + 1) :
    isNaN (x (i + 1) -. x i) = true := by
  rcases e with rfl | rfl
  · exact NanLaw.sub_right _ h
  · exact NanLaw.sub_left _ h

theorem nan_rsiInit {x : Nat → F} {k : Nat} (h : isNaN (x k) = true) :
    ∀ {m : Nat}, k ≤ m → 1 ≤ m → isNaN (rsiInit x m).1 = true
  | m + 1, hm, _ => by
    rw [rsiInit]
    refine nan_rsiStep ?_
    by_cases e : k = m ∨ k = m + 1
    · exact Or.inr (nan_diff h e)
    · exact Or.inl (nan_rsiInit h (by omega) (by omega))

theorem nan_rsiW {x : Nat → F} {p k : Nat} (hp : 1 ≤ p) (h : isNaN (x k) = true) :
    ∀ {m : Nat}, k ≤ p + m → isNaN (rsiW p x m).1 = true
  | 0, hm => NanLaw.div_left _ (nan_rsiInit h hm (by omega))
  | m + 1, hm => by
    simp only [rsiW]
    refine NanLaw.div_left _ (nan_rsiStep ?_)
    by_cases e : k = p + m ∨ k = p + m + 1
    · exact Or.inr (nan_diff h e)
    · exact Or.inl (NanLaw.mul_left _ (nan_rsiW hp h (by omega)))

theorem nan_rsiVal {gl : F × F} (h : isNaN gl.1 = true) : isNaN (rsiVal gl) = true := by
  simp only [rsiVal]
  rw [NanLaw.lt_right _ (NanLaw.add_left _ h), Bool.false_and]
  exact NanLaw.mul_right _ (NanLaw.div_left _ h)

theorem Deaf.hold {I : Strat F} {m : Nat} (h : Deaf I m) : ∃ ok f, Signals I ok f ∧
    ∀ (x : Nat → Candle F) k i, isNaN (cl x k) = true → k ≤ i → m ≤ i → f x i = Hold := by
  cases h with
  | macd p q r =>
    refine ⟨_, _, MACD.signals p q r, fun x k i hk hi hm => ?_⟩
    obtain ⟨i, rfl⟩ := Nat.exists_eq_add_of_le' hm
    have := nan_subF_left (b := emaF r (cl x) (i + 1)) (nan_emaF (p := p) hk hi)
    simp [pairSide, MACD.rule, MACD.out, difF, GoFloat.gt, NanLaw.lt_left _ this, NanLaw.lt_right _ this]
  | apo p q =>
    refine ⟨_, _, APO.signals p q, fun x k i hk hi hm => ?_⟩
    obtain ⟨i, rfl⟩ := Nat.exists_eq_add_of_le' hm
    exact nan_crossRule (Or.inl (nan_subF_left (nan_emaF hk hi)))
  | keltner p =>
    refine ⟨_, _, Keltner.signals p, fun x k i hk hi hm => ?_⟩
    obtain ⟨i, rfl⟩ := Nat.exists_eq_add_of_le' hm
    exact nan_crossRule (Or.inr (nan_emaF hk hi))
  | traderXO p q =>
    refine ⟨_, _, XO.signals p q, fun x k i hk hi hm => ?_⟩
    cases i with
    | zero => rfl
    | succ i =>
      have := nan_emaF (p := p) hk hi
      simp [xoF, XO.step, XO.out, GoFloat.gt, NanLaw.lt_left _ this, NanLaw.lt_right _ this]
  | rsi p hp =>
    refine ⟨_, _, RSI.signals p, fun x k i hk hi hm => ?_⟩
    obtain ⟨i, rfl⟩ := Nat.exists_eq_add_of_le' (show 1 ≤ i by omega)
    have : isNaN (RSI.out p x (i + 1)).value = true := by
      show isNaN (rsiF _ _ _) = true
      rw [rsiF, if_neg (by omega)]
      exact nan_rsiVal (nan_rsiW (by omega) hk (by omega))
    simp [pairSide, RSI.rule, NanLaw.lt_left _ this]
  | vegas p s1 s2 l1 l2 =>
    refine ⟨_, _, Vegas.signals p s1 s2 l1 l2, fun x k i hk hi hm => ?_⟩
    have := nan_emaF (p := p) hk hi
    simp [vegasSide, show ¬ i < 11 by omega, Vegas.rule, Vegas.out, GoFloat.gt, NanLaw.lt_left _ this, NanLaw.lt_right _ this]

/-- C111: after one candle whose close is NaN, `Macd`, `AbsolutePriceOscillator`, `KeltnerChannel`, `TraderXO`, `Rsi` and
`EMAVegas` report `Hold` at that candle and at every later one, whatever the market does. -/
theorem C111_deaf {I : Strat F} {m : Nat} (h : Deaf I m) {it : Item F} {s : List Side} (hs : I.signals it = .ok s) {k : Nat}
    {c : Candle F} (hk : it.candles[k]? = some c) (hc : isNaN c.close = true) {i : Nat} (hi : k ≤ i) (hm : m ≤ i)
    {side : Side} (hside : s[i]? = some side) : side = Hold := by
  obtain ⟨ok, f, hf, hh⟩ := h.hold
  obtain ⟨x, hx, rfl, _⟩ := tab_at hk
  obtain ⟨_, rfl⟩ := signals_inv hf hx hs
  obtain ⟨rfl, _⟩ := tab_entry hside
  exact hh x k i hc hi hm

end

/-- The item with the close of candle `k` replaced by NaN. -/
def spoil (k : Nat) (it : Item (XF ℚ)) : Item (XF ℚ) :=
  { it with candles := it.candles.modify k fun c => { c with close := .nan } }

/-- The hypotheses of `C111_deaf` on a market that TraderXO trades four times: with the second close spoilt it never trades. -/
example : (XO 1 3).signals (closes [3, 2, 4, 1, 5, 6]) = .ok [Hold, Sell, Buy, Sell, Buy, Hold] ∧
    (XO 1 3).signals (spoil 1 (closes [3, 2, 4, 1, 5, 6])) = .ok [Hold, Hold, Hold, Hold, Hold, Hold] ∧
    ((spoil 1 (closes [3, 2, 4, 1, 5, 6])).candles[1]?.map fun c => isNaN c.close) = some true := by decide +kernel

/-- C111: not every strategy is lost: UTBot restarts its stop at the first candle after the bad one and trades again. -/
theorem C111_utbot_recovers :
    (UT 1 1).signals (spoil 1 (closes [3, 2, 4, 1, 5, 6])) = .ok [Buy, Hold, Hold, Hold, Buy, Hold] := by decide +kernel

end Verif.Props
