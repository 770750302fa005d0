import Verif.Ta.Exact
import Verif.Go.Real
import Mathlib.Algebra.Order.Ring.Rat

/-!
# C19 - C22, C25, C26: averages, rolling sums, variance
-/

set_option linter.unusedSectionVars false

namespace Verif.Props
open Verif Verif.Ta GoFloat XF

variable {K : Type} [Field K] [LinearOrder K]

/-- Applies an `n`-indexed closed form to an arbitrary slice of numbers. -/
theorem onTab {P : List K → Prop} (h : ∀ (n : Nat) (a : Nat → K), P (tab n a)) (xs : List K) :
    P xs := by
  obtain ⟨a, ha⟩ := exists_tabK xs
  rw [ha]; exact h _ _

theorem mean_window [IsStrictOrderedRing K] {p i n : Nat} (a : Nat → K) (hi : i < n) :
    mean (window p i (tab n a))
      = (psum a (i + 1) - psum a (i + 1 - p)) / ((min p (i + 1) : Nat) : K) := by
  rw [mean, sum_window a hi, length_window a hi]

/-! ## C19 -/

/-- **C19.** In exact arithmetic `Sma(p, xs)` with `p >= 1` returns, for every index, the mean of
the last `p` values (of all values seen while there are fewer). -/
theorem C19_sma_window_mean [IsStrictOrderedRing K] (p : Nat) (hp : 1 ≤ p) (xs : List K) :
    Sma p (fins xs) = .ok (fins (tab xs.length fun i => mean (window p i xs))) := by
  refine onTab (P := fun xs => Sma p (fins xs) = .ok (fins (tab xs.length fun i => mean (window p i xs))))
    (fun n a => ?_) xs
  rw [fins_tab, Sma_tab, tab_length, fins_tab]
  exact congrArg _ (tab_ext fun i hi => by rw [smaF_fin (by omega), mean_window a hi])

/-- **C19 (period 0).** All zeros. -/
theorem C19_sma_period_zero (xs : List K) :
    Sma 0 (fins xs) = .ok (fins (xs.map fun _ => 0)) := by
  refine onTab (P := fun xs => Sma 0 (fins xs) = .ok (fins (xs.map fun _ => 0))) (fun n a => ?_) xs
  have := Sma_tab 0 n (finF a)
  rw [show ((0 : Nat) : Int) = 0 from rfl] at this
  rw [fins_tab, this, map_tab, fins_tab]
  exact congrArg _ (tab_ext fun i hi => smaF_zero a i)

/-- **C19 (negative period).** Panics on every non-empty slice, whatever the float64 content. -/
theorem C19_sma_negative_period {F : Type} [GoFloat F] (p : Int) (hp : p < 0) (xs : List F)
    (hx : xs ≠ []) : Sma p xs = .error .index := by
  obtain ⟨x, h⟩ := exists_tab xs hx
  rw [h]
  exact Sma_neg hp _ _ (List.length_pos_of_ne_nil hx)

/-- `Sma` never panics for `p >= 0`, on any float64 content, and keeps the length. -/
theorem C19_sma_total {F : Type} [GoFloat F] (p : Nat) (xs : List F) :
    ∃ ys, Sma p xs = .ok ys ∧ ys.length = xs.length := by
  obtain ⟨x, h⟩ := exists_tabF xs
  refine ⟨tab xs.length (smaF p x), ?_, by simp⟩
  conv_lhs => rw [h]
  exact Sma_tab _ _ _

example : Sma 2 (fins [1, 2, 4, 8] : List (XF ℚ)) = .ok (fins [1, 3 / 2, 3, 6]) := by decide +kernel
example : Sma (-1) ([.nan] : List (XF ℚ)) = .error .index := by decide +kernel

/-! ## C20 -/

/-- **C20.** In exact arithmetic `Sum(p, xs)[i]` is the sum of the last `min p (i+1)` values. -/
theorem C20_sum_window (p : Nat) (xs : List K) :
    Ta.Sum p (fins xs) = .ok (fins (tab xs.length fun i => (window p i xs).sum)) := by
  refine onTab (P := fun xs => Ta.Sum p (fins xs)
    = .ok (fins (tab xs.length fun i => (window p i xs).sum))) (fun n a => ?_) xs
  rw [fins_tab, Sum_tab, tab_length, fins_tab]
  exact congrArg _ (tab_ext fun i hi => by rw [runSum_fin, sum_window a hi])

/-- The window of an index holds the values at positions `i-p+1 .. i`. -/
theorem C20_window_positions (p i : Nat) (xs : List K) (hi : i < xs.length) :
    (window p i xs).length = min p (i + 1) ∧
    ∀ j, j < min p (i + 1) → (window p i xs)[j]? = xs[i + 1 - min p (i + 1) + j]? := by
  refine onTab (P := fun xs => i < xs.length → (window p i xs).length = min p (i + 1) ∧
    ∀ j, j < min p (i + 1) → (window p i xs)[j]? = xs[i + 1 - min p (i + 1) + j]?)
    (fun n a hi => ?_) xs hi
  rw [tab_length] at hi
  refine ⟨length_window a hi, fun j hj => ?_⟩
  rw [window_tab a hi, tab_getElem?_lt (by omega), tab_getElem?_lt (by omega)]
  congr 2; omega

example : Ta.Sum 2 (fins [1, 2, 4, 8] : List (XF ℚ)) = .ok (fins [1, 3, 6, 12]) := by decide +kernel

/-! ## C21 -/

/-- Weighted mean with weights `1, 2, .., n` (the last value weighs most). -/
def linWeighted {K : Type} [Field K] (xs : List K) : K :=
  (xs.mapIdx fun j v => v * ((j : K) + 1)).sum / ((xs.length : K) * (xs.length + 1) / 2)

theorem linWeighted_tab (n : Nat) (a : Nat → K) :
    linWeighted (tab n a)
      = (∑ j ∈ Finset.range n, a j * ((j : K) + 1)) / ((n : K) * (n + 1) / 2) := by
  rw [linWeighted]
  have : (tab n a).mapIdx (fun j v => v * ((j : K) + 1)) = tab n (fun j => a j * ((j : K) + 1)) := by
    refine eq_tab_of_forall (by simp) fun i hi => ?_
    rw [List.getElem?_mapIdx, tab_getElem?_lt hi]; rfl
  rw [this, sum_tab, tab_length]

/-- **C21.** In exact arithmetic `Wma(p, xs)` with `p >= 1` on at least `p-1` values is 0 before
index `p-1` and then the linearly weighted mean of the window; on shorter series it panics. -/
theorem C21_wma [IsStrictOrderedRing K] (p : Nat) (hp : 1 ≤ p) (xs : List K) :
    Wma p (fins xs) =
      if p ≤ xs.length + 1 then
        .ok (fins (tab xs.length fun i => if i + 1 < p then 0 else linWeighted (window p i xs)))
      else .error .index := by
  refine onTab (P := fun xs => Wma p (fins xs) = if p ≤ xs.length + 1 then
        .ok (fins (tab xs.length fun i => if i + 1 < p then 0 else linWeighted (window p i xs)))
      else .error .index) (fun n a => ?_) xs
  rw [fins_tab, Wma_tab p n (by omega), tab_length]
  by_cases h : p ≤ n + 1
  · rw [if_pos h, if_pos h, fins_tab]
    refine congrArg _ (tab_ext fun i hi => ?_)
    rw [wmaF_fin (by omega)]
    congr 1
    by_cases h2 : i + 1 < p
    · simp [h2]
    · rw [if_neg h2, if_neg h2, window_tab a hi, show i + 1 - (i + 1 - p) = p by omega,
        linWeighted_tab]
  · rw [if_neg h, if_neg h]

example : Wma 3 (fins [1, 2, 4, 8] : List (XF ℚ)) = .ok (fins [0, 0, 17 / 6, 34 / 6]) := by
  decide +kernel
example : Wma 3 (fins [1] : List (XF ℚ)) = .error .index := by decide +kernel

/-! ## C22 -/

theorem pvar_tab (n : Nat) (a : Nat → K) :
    pvar (tab n a) = (∑ j ∈ Finset.range n, (a j - (∑ j ∈ Finset.range n, a j) / n) ^ 2) / n := by
  rw [pvar, mean, map_tab, sum_tab, sum_tab, tab_length]

/-- A population variance is never negative. -/
theorem pvar_nonneg [IsStrictOrderedRing K] (xs : List K) : 0 ≤ pvar xs := by
  refine onTab (P := fun xs => 0 ≤ pvar xs) (fun n a => ?_) xs
  rw [pvar_tab]
  exact div_nonneg (Finset.sum_nonneg fun j _ => sq_nonneg _) (Nat.cast_nonneg _)

/-- **C22 (variance).** In exact arithmetic `Variance(xs, p)` with `1 <= p <= len(xs)` is 0 before
index `p-1` and then the population variance of the window; with fewer values it panics. -/
theorem C22_variance_window [IsStrictOrderedRing K] (p : Nat) (hp : 1 ≤ p) (xs : List K) :
    Variance (fins xs) p =
      if p ≤ xs.length then
        .ok (fins (tab xs.length fun i => if i + 1 < p then 0 else pvar (window p i xs)))
      else .error .index := by
  refine onTab (P := fun xs => Variance (fins xs) p = if p ≤ xs.length then
        .ok (fins (tab xs.length fun i => if i + 1 < p then 0 else pvar (window p i xs)))
      else .error .index) (fun n a => ?_) xs
  rw [fins_tab, Variance_tab p n (by omega), tab_length]
  by_cases h : p ≤ n
  · rw [if_pos h, if_pos h, fins_tab]
    refine congrArg _ (tab_ext fun i hi => ?_)
    rw [varF_fin (by omega)]
    congr 1
    by_cases h2 : i + 1 < p
    · simp [h2]
    · rw [if_neg h2, if_neg h2, window_tab a hi, show i + 1 - (i + 1 - p) = p by omega, pvar_tab]
  · rw [if_neg h, if_neg h]

/-- **C22 (never negative).** Every value returned by `Variance` is `>= 0`. -/
theorem C22_variance_nonneg [IsStrictOrderedRing K] (p : Nat) (hp : 1 ≤ p) (xs ys : List K)
    (h : Variance (fins xs) p = .ok (fins ys)) : ∀ y ∈ ys, 0 ≤ y := by
  rw [C22_variance_window p hp] at h
  split at h
  · have := fins_inj (Except.ok.inj h)
    subst this
    intro y hy
    obtain ⟨i, hi⟩ := List.mem_iff_getElem?.mp hy
    rw [tab_getElem?] at hi
    split at hi
    · cases hi
      split
      · exact le_refl _
      · exact pvar_nonneg _
    · simp at hi
  · cases h

/-- **C22 (standard deviation).** Over the reals `StdDev(xs, p, dev)` is `dev` times the square
root of the window variance, and 0 where that variance is below `1e-14` (in particular before index
`p-1`); it panics exactly when `Variance` does. -/
theorem C22_stddev (p : Nat) (hp : 1 ≤ p) (dev : ℝ) (xs : List ℝ) :
    StdDev (fins xs) p (.fin dev) =
      if p ≤ xs.length then
        .ok (fins (tab xs.length fun i =>
          let v := if i + 1 < p then 0 else pvar (window p i xs)
          if v < 1 / 10 ^ 14 then 0 else Real.sqrt v * dev))
      else .error .index := by
  refine onTab (P := fun xs => StdDev (fins xs) p (.fin dev) = if p ≤ xs.length then
        .ok (fins (tab xs.length fun i =>
          let v := if i + 1 < p then 0 else pvar (window p i xs)
          if v < 1 / 10 ^ 14 then 0 else Real.sqrt v * dev))
      else .error .index) (fun n a => ?_) xs
  rw [fins_tab, StdDev_tab p n (by omega), tab_length]
  by_cases h : p ≤ n
  · rw [if_pos h, if_pos h, fins_tab]
    refine congrArg _ (tab_ext fun i hi => ?_)
    have hv : varF p (fun i => XF.fin (a i)) i
        = XF.fin (if i + 1 < p then 0 else pvar (window p i (tab n a))) := by
      rw [varF_fin (by omega)]
      congr 1
      by_cases h2 : i + 1 < p
      · simp [h2]
      · rw [if_neg h2, if_neg h2, window_tab a hi, show i + 1 - (i + 1 - p) = p by omega, pvar_tab]
    have hnn : (0 : ℝ) ≤ (if i + 1 < p then 0 else pvar (window p i (tab n a))) := by
      split
      · exact le_refl _
      · exact pvar_nonneg _
    rw [stdF, hv]
    simp only
    generalize (if i + 1 < p then 0 else pvar (window p i (tab n a))) = v at hnn
    have hl : (lit (1 / 100000000000000) : XF ℝ) = XF.fin (1 / 10 ^ 14) := by
      rw [lit_fin]; congr 1; norm_num
    rw [hl, lt_fin]
    by_cases hlt : v < 1 / 10 ^ 14
    · rw [if_pos (by simpa using hlt), if_pos hlt, fl_fin, Int.cast_zero]
    · rw [if_neg (by simpa using hlt), if_neg hlt, sqrt_fin hnn, eq_fin' dev]
      by_cases hd : dev = 1
      · simp [hd]
      · simp [hd]
  · rw [if_neg h, if_neg h]
where
  eq_fin' (dev : ℝ) : (XF.fin dev ==. (fl 1 : XF ℝ)) = decide (dev = 1) := by
    rw [fl_fin, eq_fin]; simp

example : Variance (fins [1, 2, 4, 8] : List (XF ℚ)) 2 = .ok (fins [0, 1 / 4, 1, 4]) := by
  decide +kernel
example : Variance (fins [1] : List (XF ℚ)) 2 = .error .index := by decide +kernel

/-! ## C25 -/

variable [IsStrictOrderedRing K]

theorem emaK_bounds {p : Nat} (hp : 1 ≤ p) (a : Nat → K) (lo hi : K) (i : Nat)
    (h : ∀ j ≤ i, lo ≤ a j ∧ a j ≤ hi) : lo ≤ emaK p a i ∧ emaK p a i ≤ hi := by
  induction i with
  | zero => exact h 0 (le_refl _)
  | succ k ih =>
    obtain ⟨h1, h2⟩ := ih fun j hj => h j (by omega)
    obtain ⟨h3, h4⟩ := h (k + 1) (le_refl _)
    have hp1 : (1 : K) ≤ (p : K) := by exact_mod_cast hp
    have hpos : (0 : K) < (p : K) + 1 := by linarith
    rw [emaK, le_div_iff₀ hpos, div_le_iff₀ hpos]
    constructor <;> nlinarith [mul_le_mul_of_nonneg_left h1 (sub_nonneg.mpr hp1),
      mul_le_mul_of_nonneg_left h2 (sub_nonneg.mpr hp1)]

/-- **C25 (recurrence and range).** In exact arithmetic, for `p >= 1`, `Ema(p, xs)` starts with the
first value, continues with weight `2/(p+1)` on the new value, and stays between any bounds of the
values seen so far. -/
theorem C25_ema_range (p : Nat) (hp : 1 ≤ p) (xs : List K) :
    ∃ ys, Ema p (fins xs) = .ok (fins ys) ∧ ys.length = xs.length ∧
      (∀ y, ys[0]? = some y → xs[0]? = some y) ∧
      (∀ i y y' x, ys[i]? = some y → ys[i + 1]? = some y' → xs[i + 1]? = some x →
        y' = 2 / ((p : K) + 1) * x + (1 - 2 / ((p : K) + 1)) * y) ∧
      (∀ i y lo hi, ys[i]? = some y → (∀ v ∈ xs.take (i + 1), lo ≤ v ∧ v ≤ hi) →
        lo ≤ y ∧ y ≤ hi) := by
  refine onTab (P := fun xs => ∃ ys, Ema p (fins xs) = .ok (fins ys) ∧ ys.length = xs.length ∧
      (∀ y, ys[0]? = some y → xs[0]? = some y) ∧
      (∀ i y y' x, ys[i]? = some y → ys[i + 1]? = some y' → xs[i + 1]? = some x →
        y' = 2 / ((p : K) + 1) * x + (1 - 2 / ((p : K) + 1)) * y) ∧
      (∀ i y lo hi, ys[i]? = some y → (∀ v ∈ xs.take (i + 1), lo ≤ v ∧ v ≤ hi) →
        lo ≤ y ∧ y ≤ hi)) (fun n a => ?_) xs
  refine ⟨tab n (emaK p a), ?_, by simp, ?_, ?_, ?_⟩
  · rw [fins_tab, Ema_tab, fins_tab]
    exact congrArg _ (tab_ext fun i _ => emaF_fin p a i)
  · intro y hy
    rw [tab_getElem?] at hy ⊢
    exact hy
  · intro i y y' x hy hy' hx
    rw [tab_getElem?] at hy hy' hx
    split at hy' <;> simp at hy'
    next h =>
    rw [if_pos h] at hx; rw [if_pos (by omega)] at hy
    cases hx; cases hy; subst hy'
    have : ((p : K) + 1) ≠ 0 := by positivity
    rw [emaK]; field_simp; ring
  · intro i y lo hi hy hb
    rw [tab_getElem?] at hy
    split at hy <;> simp at hy
    next h =>
    subst hy
    refine emaK_bounds hp a lo hi i fun j hj => hb _ ?_
    rw [tab_take a (by omega)]
    exact List.mem_of_getElem? (tab_getElem?_lt (show j < i + 1 by omega))

/-- **C25 (constant series).** A constant series is reproduced. -/
theorem C25_ema_constant (p : Nat) (hp : 1 ≤ p) (n : Nat) (c : K) :
    Ema p (fins (List.replicate n c)) = .ok (fins (List.replicate n c)) := by
  rw [replicate_eq_tab, fins_tab, Ema_tab]
  refine congrArg _ (tab_ext fun i _ => ?_)
  rw [emaF_fin]
  congr 1
  have := emaK_bounds hp (fun _ => c) c c i (fun _ _ => ⟨le_refl _, le_refl _⟩)
  exact le_antisymm this.2 this.1

/-- Linear combination of two series of the same length. -/
def combine (s t : K) (xs ys : List K) : List K := List.zipWith (fun x y => s * x + t * y) xs ys

theorem emaK_linear (p : Nat) (s t : K) (a b : Nat → K) (i : Nat) :
    emaK p (fun j => s * a j + t * b j) i = s * emaK p a i + t * emaK p b i := by
  induction i with
  | zero => rfl
  | succ k ih => rw [emaK, ih, emaK, emaK]; ring

/-- **C25 (linearity).** `Ema` and `Dema` of a combination are the combination of the results. -/
theorem C25_ema_linear (p : Nat) (s t : K) (xs ys : List K) (hl : xs.length = ys.length) :
    ∃ us vs us' vs', Ema p (fins xs) = .ok (fins us) ∧ Ema p (fins ys) = .ok (fins vs) ∧
      Ema p (fins (combine s t xs ys)) = .ok (fins (combine s t us vs)) ∧
      Dema p (fins xs) = .ok (fins us') ∧ Dema p (fins ys) = .ok (fins vs') ∧
      Dema p (fins (combine s t xs ys)) = .ok (fins (combine s t us' vs')) := by
  obtain ⟨a, ha⟩ := exists_tabK xs
  obtain ⟨b, hb⟩ := exists_tabK ys
  generalize xs.length = n at ha hl
  rw [← hl] at hb
  subst ha hb
  have hE : ∀ a : Nat → K, Ema p (fins (tab n a)) = .ok (fins (tab n (emaK p a))) := fun a => by
    rw [fins_tab, Ema_tab, fins_tab]
    exact congrArg _ (tab_ext fun i _ => emaF_fin p a i)
  have hD : ∀ a : Nat → K, Dema p (fins (tab n a))
      = .ok (fins (tab n fun i => emaK p a i * 2 - emaK p (emaK p a) i)) := fun a => by
    rw [fins_tab, Dema_tab, fins_tab]
    refine congrArg _ (tab_ext fun i _ => ?_)
    have e : emaF p (fun i => XF.fin (a i)) = finF (emaK p a) := funext fun i => emaF_fin p a i
    rw [demaF, e, emaF_fin]
    rw [show (finF (emaK p a) i *. (fl 2 : XF K)) = XF.fin (emaK p a i * 2) by simp, subF_fin]
  have hc : ∀ a b : Nat → K, combine s t (tab n a) (tab n b) = tab n (fun i => s * a i + t * b i) :=
    fun a b => by rw [combine, zipWith_tab, Nat.min_self]
  refine ⟨_, _, _, _, hE a, hE b, ?_, hD a, hD b, ?_⟩
  · rw [hc, hE, hc]
    congr 2
    exact tab_ext fun i _ => emaK_linear p s t a b i
  · rw [hc, hD, hc]
    congr 2
    refine tab_ext fun i _ => ?_
    have : emaK p (fun i => s * a i + t * b i) = fun i => s * emaK p a i + t * emaK p b i :=
      funext fun i => emaK_linear p s t a b i
    rw [this, emaK_linear]; ring

omit [IsStrictOrderedRing K] in
/-- **C25 (period -1).** The divisor `period + 1` is zero: the second value is never finite. -/
theorem C25_ema_period_minus_one (x y : K) (xs : List K) :
    ∃ r, Ema (-1) (fins (x :: y :: xs)) = .ok r ∧ ∃ v, r[1]? = some v ∧ ∀ k, v ≠ .fin k := by
  obtain ⟨a, ha⟩ := exists_tabK (x :: y :: xs)
  have hn : 1 < (x :: y :: xs).length := by simp
  generalize (x :: y :: xs).length = n at ha hn
  rw [ha, fins_tab]
  refine ⟨_, Ema_tab _ _ _, _, tab_getElem?_lt hn, fun k h => ?_⟩
  rw [emaF] at h
  simp only [emaF, fl, Int.reduceNeg, Int.reduceAdd, Int.reduceSub, ofInt_fin, mul_fin, add_fin,
    div_fin_eq, Int.cast_zero, if_true, infSign] at h
  split at h
  · cases h
  · split at h <;> cases h

example : Ema 3 (fins [2, 4, 8] : List (XF ℚ)) = .ok (fins [2, 3, 11 / 2]) := by decide +kernel
example : Ema (-1) (fins [2, 4] : List (XF ℚ)) = .ok [.fin 2, .pinf] := by decide +kernel

/-! ## C26 -/

/-- **C26 (partial).** What `Rma` computes in exact arithmetic for `p >= 1`: 0 at index 0, at
`1 <= i < p` the sum of the values at `1..i` divided by `i+1`, and from `p` on the Wilder step
`(previous * (p-1) + value) / p`. Missing from the documented behaviour: the value at index 0 never
enters the warm-up mean (see `C26_rma_doc_refuted`). -/
theorem C26_rma_partial (p : Nat) (hp : 1 ≤ p) (xs : List K) :
    ∃ ys, Rma p (fins xs) = .ok (fins ys) ∧ ys.length = xs.length ∧
      (∀ y, ys[0]? = some y → y = 0) ∧
      (∀ i y, ys[i]? = some y → 1 ≤ i → i < p →
        y = ((xs.take (i + 1)).tail).sum / ((i : K) + 1)) ∧
      (∀ i y y' x, p ≤ i + 1 → ys[i]? = some y → ys[i + 1]? = some y' → xs[i + 1]? = some x →
        y' = (y * ((p : K) - 1) + x) / p) := by
  refine onTab (P := fun xs => ∃ ys, Rma p (fins xs) = .ok (fins ys) ∧ ys.length = xs.length ∧
      (∀ y, ys[0]? = some y → y = 0) ∧
      (∀ i y, ys[i]? = some y → 1 ≤ i → i < p →
        y = ((xs.take (i + 1)).tail).sum / ((i : K) + 1)) ∧
      (∀ i y y' x, p ≤ i + 1 → ys[i]? = some y → ys[i + 1]? = some y' → xs[i + 1]? = some x →
        y' = (y * ((p : K) - 1) + x) / p)) (fun n a => ?_) xs
  refine ⟨tab n fun i => (rmaK p a i).2, ?_, by simp, ?_, ?_, ?_⟩
  · rw [fins_tab, Rma_tab, fins_tab]
    exact congrArg _ (tab_ext fun i _ => rmaF_fin (by omega) a i)
  · intro y hy
    rw [tab_getElem?] at hy
    split at hy <;> simp at hy
    rw [← hy]; rfl
  · intro i y hy h1 hip
    rw [tab_getElem?] at hy
    split at hy <;> simp at hy
    next hin =>
    subst hy
    rw [tab_take a (by omega), ← List.drop_one, tab_drop, sum_tab]
    have key : ∀ i, i < p → (rmaK p a i).1 = ∑ j ∈ Finset.range i, a (1 + j) := by
      intro i
      induction i with
      | zero => intro _; rfl
      | succ k ih =>
        intro hk
        rw [rmaK, if_pos hk]
        simp only
        rw [ih (by omega), Finset.sum_range_succ, Nat.add_comm 1 k]
    obtain ⟨k, rfl⟩ : ∃ k, i = k + 1 := ⟨i - 1, by omega⟩
    have := key (k + 1) hip
    rw [rmaK, if_pos hip] at this ⊢
    simp only at this ⊢
    rw [this]
    push_cast
    congr 1
    ring
  · intro i y y' x hpi hy hy' hx
    rw [tab_getElem?] at hy hy' hx
    split at hy' <;> simp at hy'
    next h =>
    rw [if_pos h] at hx; rw [if_pos (by omega)] at hy
    cases hx; cases hy; subst hy'
    rw [rmaK, if_neg (by omega)]

/-- **C26 (refutation).** The documented warm-up - the mean of the first `i+1` values - fails already
on a constant series: the code skips index 0. -/
theorem C26_rma_doc_refuted :
    Rma 3 (fins [6, 6, 6, 6] : List (XF ℚ)) = .ok (fins [0, 3, 4, 14 / 3]) ∧
    ¬ ∀ (p : Nat) (xs ys : List ℚ), 1 ≤ p → Rma p (fins xs) = .ok (fins ys) →
      ∀ i y, i < p → ys[i]? = some y → y = mean (xs.take (i + 1)) := by
  have h : Rma 3 (fins [6, 6, 6, 6] : List (XF ℚ)) = .ok (fins [0, 3, 4, 14 / 3]) := by decide +kernel
  refine ⟨h, fun hall => ?_⟩
  have := hall 3 _ _ (by omega) h 0 0 (by omega) rfl
  norm_num [mean] at this

end Verif.Props
