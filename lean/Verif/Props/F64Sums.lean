import Verif.Props.F64Percent
import Verif.Props.Lines

/-!
# Running sums in float64 arithmetic (C101, C102)

`Sum` and `Sma` add the new value and subtract the one that leaves the window, so rounding errors stay in the sum for
ever. On data from a binary grid (whole numbers, say) nothing is rounded; in general the error grows at most linearly.
-/

namespace Verif.Props
open Verif Verif.Klines Verif.Ta Verif.Ind GoFloat

/-- The float64 values `xs` are the numbers `as`. -/
def Vals (xs : List B64) (as : List ℚ) : Prop := xs.map B64.val = as.map .fin

instance (xs : List B64) (as : List ℚ) : Decidable (Vals xs as) := inferInstanceAs (Decidable (_ = _))

theorem Vals.tabs {xs : List B64} {as : List ℚ} (h : Vals xs as) :
    ∃ x a, xs = tab as.length x ∧ as = tab as.length a ∧ ∀ j, (x j).val = .fin (a j) := by
  have hl : xs.length = as.length := by simpa using congrArg List.length h
  refine ⟨fun i => xs[i]?.getD (fl 0), fun i => as[i]?.getD 0, eq_tab_of_forall hl fun i hi => ?_,
    eq_tab_of_forall rfl fun i hi => by simp [hi], fun j => ?_⟩
  · simp [show i < xs.length by omega]
  · have := congrArg (fun l => l[j]?) h
    simp only [List.getElem?_map] at this
    by_cases hj : j < as.length
    · simp only [hj, show j < xs.length by omega, List.getElem?_eq_getElem, Option.map_some, Option.some.injEq,
        Option.getD_some] at this ⊢
      exact this
    · simp only [List.getElem?_eq_none (show as.length ≤ j by omega),
        List.getElem?_eq_none (show xs.length ≤ j by omega), Option.getD_none]
      exact val_zero64

/-! ## Exact sums -/

theorem sum_Ico_abs_le {k : Nat → ℤ} {l m l' m' : Nat} (h1 : l' ≤ l) (h2 : m ≤ m') :
    |∑ j ∈ Finset.Ico l m, k j| ≤ ∑ j ∈ Finset.Ico l' m', |k j| :=
  (Finset.abs_sum_le_sum_abs _ _).trans
    (Finset.sum_le_sum_of_subset_of_nonneg (Finset.Ico_subset_Ico h1 h2) fun _ _ _ => abs_nonneg _)

theorem runSum_exact {p : Nat} {x : Nat → B64} {k : Nat → ℤ} {e : ℤ} (he : -1074 ≤ e) (he' : e ≤ 970) {n : Nat}
    (h : ∀ j < n, (x j).val = .fin (k j * 2 ^ e)) (hb : ∀ i < n, ∑ j ∈ Finset.Ico (i - p) (i + 1), |k j| ≤ 2 ^ 53)
    (m : Nat) (hm : m ≤ n) :
    (runSum p x m).val = .fin ((∑ j ∈ Finset.Ico (m - p) m, k j : ℤ) * 2 ^ e) := by
  induction m with
  | zero => simpa [runSum] using val_zero64
  | succ m ih =>
    have ih := ih (by omega)
    have hm' := h m (by omega)
    have e1 : (runSum p x m +. x m).val = .fin ((∑ j ∈ Finset.Ico (m - p) (m + 1), k j : ℤ) * 2 ^ e) := by
      rw [B64.val_add ih hm', ← add_mul, ← Int.cast_add, ← Finset.sum_Ico_succ_top (by omega)]
      exact round64_rep (srep_scaled ((sum_Ico_abs_le le_rfl le_rfl).trans (hb m (by omega))) he he')
    rw [runSum]
    split
    · next hp =>
      rw [B64.val_sub e1 (h (m - p) (by omega)), ← sub_mul, ← Int.cast_sub,
        Finset.sum_eq_sum_Ico_succ_bot (show m - p < m + 1 by omega), add_sub_cancel_left,
        show m + 1 - p = m - p + 1 by omega]
      exact round64_rep (srep_scaled ((sum_Ico_abs_le (by omega) le_rfl).trans (hb m (by omega))) he he')
    · next hp =>
      rw [e1, show m - p = 0 by omega, show m + 1 - p = 0 by omega]

theorem sum_window_Ico {R : Type} [AddCommMonoid R] {p i n : Nat} (a : Nat → R) (hi : i < n) :
    (window p i (tab n a)).sum = ∑ j ∈ Finset.Ico (i + 1 - p) (i + 1), a j := by
  rw [window_tab a hi, sum_tab, Finset.sum_Ico_eq_sum_range]

/-- **C101 (Sum).** If the values are integer multiples `k * 2^e` of one power of two and the magnitudes of any `p + 1`
consecutive `k` add up to at most `2^53`, then the float64 `Sum` is the exact sum of every window: nothing is rounded,
however long the series is. -/
theorem C101_sum_exact (p : Nat) {e : ℤ} (he : -1074 ≤ e) (he' : e ≤ 970) {xs : List B64} {ks : List ℤ}
    (hv : Vals xs (ks.map fun k : ℤ => (k : ℚ) * 2 ^ e)) (hb : ∀ i, ((window (p + 1) i ks).map fun k => |k|).sum ≤ 2 ^ 53) :
    ∃ r, Ta.Sum p xs = .ok r ∧ Vals r (tab ks.length fun i => ((window p i ks).sum : ℤ) * 2 ^ e) := by
  obtain ⟨x, a, hx, ha, hxa⟩ := hv.tabs
  rw [List.length_map] at hx ha
  obtain ⟨k, hk⟩ : ∃ k, ks = tab ks.length k :=
    ⟨fun i => ks[i]?.getD 0, eq_tab_of_forall rfl fun i hi => by simp [hi]⟩
  have hxk : ∀ j < ks.length, (x j).val = .fin ((k j : ℚ) * 2 ^ e) := by
    intro j hj
    have h1 := congrArg (fun l => l[j]?) ha
    simp only [List.getElem?_map] at h1
    rw [hk, tab_getElem?_lt (by simpa using hj), tab_getElem?_lt (by simpa using hj)] at h1
    rw [hxa, ← Option.some.inj h1]
  have hb' : ∀ i < ks.length, ∑ j ∈ Finset.Ico (i - p) (i + 1), |k j| ≤ 2 ^ 53 := by
    intro i hi
    have := hb i
    rw [hk, window_tab k (by simpa using hi), map_tab, sum_tab] at this
    rwa [Finset.sum_Ico_eq_sum_range, show i - p = i + 1 - (p + 1) by omega]
  refine ⟨tab ks.length fun i => runSum p x (i + 1), ?_, ?_⟩
  · rw [hx]; exact Sum_tab _ _ _
  · rw [Vals, map_tab, map_tab]
    refine tab_ext fun i hi => ?_
    rw [runSum_exact he he' hxk hb' (i + 1) hi]
    congr 3
    conv_rhs => rw [hk]
    rw [sum_window_Ico k hi]

/-- Whole numbers: every window sum of integers whose windows stay within `2^53` is exact. -/
example : ∃ r, Ta.Sum 2 ([fl 5, fl (-3), fl 7, fl 9007199254740000] : List B64) = .ok r ∧
    Vals r [5, 2, 4, 9007199254740007] := ⟨_, rfl, by decide +kernel⟩

/-- The hypothesis cannot be dropped: with `2^53` in the series, `Sum` with period 1 does not give back the last
value. -/
theorem C101_sum_refuted : ∃ r, Ta.Sum 1 ([fl (2 ^ 53), fl 1] : List B64) = .ok r ∧ Vals r [2 ^ 53, 0] :=
  ⟨_, rfl, by decide +kernel⟩

/-! ## The drift of a running sum -/

theorem abs_winSum_le {p m n : Nat} {a : Nat → ℚ} {M : ℚ} (hM : ∀ j < n, |a j| ≤ M) (h0 : 0 ≤ M) (hm : m ≤ n) :
    |∑ j ∈ Finset.Ico (m - p) m, a j| ≤ p * M := by
  refine (Finset.abs_sum_le_sum_abs _ _).trans ?_
  refine (Finset.sum_le_card_nsmul _ _ M fun j hj => hM j ?_).trans ?_
  · have := (Finset.mem_Ico.mp hj).2; omega
  · rw [Nat.card_Ico, nsmul_eq_mul]
    refine mul_le_mul_of_nonneg_right ?_ h0
    exact_mod_cast (show m - (m - p) ≤ p by omega)

theorem two_zpow_sub (e : ℤ) : (2 : ℚ) ^ (e - 53) = 2 * 2 ^ (e - 54) := by
  rw [show e - 53 = 1 + (e - 54) by ring, zpow_add₀ (by norm_num), zpow_one]

theorem runSum_drift {p : Nat} {x : Nat → B64} {a : Nat → ℚ} {e : ℤ} {M : ℚ} {n : Nat} (he : -1021 ≤ e) (he' : e ≤ 970)
    (h : ∀ j < n, (x j).val = .fin (a j)) (hM : ∀ j < n, |a j| ≤ M)
    (hb : (p + 1) * M + n * 2 ^ (e - 53) ≤ 2 ^ e) (m : Nat) (hm : m ≤ n) :
    ∃ s, (runSum p x m).val = .fin s ∧ |s - ∑ j ∈ Finset.Ico (m - p) m, a j| ≤ m * 2 ^ (e - 53) := by
  rw [two_zpow_sub] at hb
  have hd : (0 : ℚ) < 2 ^ (e - 54) := zpow_pos (by norm_num) _
  set δ : ℚ := 2 ^ (e - 54) with hδ
  induction m with
  | zero => exact ⟨0, val_zero64, by simp⟩
  | succ m ih =>
    obtain ⟨s, hs, es⟩ := ih (by omega)
    rw [two_zpow_sub, ← hδ] at es ⊢
    have hm' := hM m (by omega)
    have h0 : 0 ≤ M := (abs_nonneg _).trans hm'
    have hS := abs_winSum_le (p := p) (m := m) hM h0 (by omega)
    have hS' := abs_winSum_le (p := p) (m := m + 1) hM h0 (by omega)
    have hmn : (m : ℚ) + 1 ≤ n := by exact_mod_cast hm
    have hmd : ((m : ℚ) + 1) * (2 * δ) ≤ n * (2 * δ) := mul_le_mul_of_nonneg_right hmn (by linarith)
    obtain ⟨t, ht, -, et⟩ := round64_error (q := s + a m) he he' (by
      rw [abs_le] at *
      constructor <;> linarith)
    rw [← hδ] at et
    have e1 := (B64.val_add hs (h m (by omega))).trans ht
    rw [runSum]
    split
    · next hp =>
      have hS1 : ∑ j ∈ Finset.Ico (m + 1 - p) (m + 1), a j = ∑ j ∈ Finset.Ico (m - p) m, a j + a m - a (m - p) := by
        rw [← Finset.sum_Ico_succ_top (by omega), Finset.sum_eq_sum_Ico_succ_bot (show m - p < m + 1 by omega),
          add_sub_cancel_left, show m + 1 - p = m - p + 1 by omega]
      obtain ⟨u, hu, -, eu⟩ := round64_error (q := t - a (m - p)) he he' (by
        rw [abs_le] at *
        constructor <;> linarith)
      rw [← hδ] at eu
      refine ⟨u, (B64.val_sub e1 (h _ (by omega))).trans hu, ?_⟩
      rw [abs_le] at *
      push_cast
      constructor <;> linarith
    · next hp =>
      refine ⟨t, e1, ?_⟩
      have hS1 : ∑ j ∈ Finset.Ico (m + 1 - p) (m + 1), a j = ∑ j ∈ Finset.Ico (m - p) m, a j + a m := by
        rw [← Finset.sum_Ico_succ_top (by omega), show m + 1 - p = 0 by omega, show m - p = 0 by omega]
      rw [abs_le] at *
      push_cast
      constructor <;> linarith

/-- **C102 (Sum).** For values of magnitude at most `M`, with `(p + 1) M + n 2^(e-53) <= 2^e`, the float64 `Sum` at
index `i` is finite and differs from the exact window sum by at most `(i + 1) 2^(e-53)`: the error grows at most
linearly with the length of the history. -/
theorem C102_sum_drift (p : Nat) {e : ℤ} {M : ℚ} {xs : List B64} {as : List ℚ} (he : -1021 ≤ e) (he' : e ≤ 970)
    (hv : Vals xs as) (hM : ∀ v ∈ as, |v| ≤ M) (hb : (p + 1) * M + as.length * 2 ^ (e - 53) ≤ 2 ^ e) :
    ∃ r, Ta.Sum p xs = .ok r ∧ r.length = as.length ∧ ∀ (i : Nat) v, r[i]? = some v →
      ∃ s, v.val = .fin s ∧ |s - (window p i as).sum| ≤ (i + 1) * 2 ^ (e - 53) := by
  obtain ⟨x, a, hx, ha, hxa⟩ := hv.tabs
  refine ⟨tab as.length fun i => runSum p x (i + 1), ?_, by simp, fun i v hr => ?_⟩
  · rw [hx]; exact Sum_tab _ _ _
  · have hi : i < as.length := by simpa using (List.getElem?_eq_some_iff.mp hr).1
    rw [tab_getElem?_lt hi] at hr
    cases hr
    obtain ⟨s, hs, es⟩ := runSum_drift (p := p) (n := as.length) he he' (fun j _ => hxa j)
      (fun j hj => hM _ (by rw [ha]; exact mem_tab.mpr ⟨j, hj, rfl⟩)) hb (i + 1) hi
    refine ⟨s, hs, ?_⟩
    rw [ha, sum_window_Ico a hi]
    push_cast at es
    exact es

theorem smaFix64 {v : B64} {a : ℚ} (h : v.val = .fin a) : smaFix v = v := by
  have h1 : isNaN v = false := by rw [← Bool.not_eq_true, B64.isNaN_val, h]; simp
  have h2 : isNegInf v = false := by
    cases v with
    | nan => rfl
    | inf s => cases s <;> simp [B64.val] at h
    | fin s q hq => rfl
  rw [smaFix, h1, h2]; rfl

theorem smaF_drift {p : Nat} (hp : 1 ≤ p) {x : Nat → B64} {a : Nat → ℚ} {e : ℤ} {M : ℚ} {n : Nat} (he : -1021 ≤ e)
    (he' : e ≤ 970) (hn : n ≤ 2 ^ 53) (h : ∀ j < n, (x j).val = .fin (a j)) (hM : ∀ j < n, |a j| ≤ M)
    (hb : (p + 1) * M + n * 2 ^ (e - 53) ≤ 2 ^ e) (i : Nat) (hi : i < n) :
    ∃ s, (smaF p x i).val = .fin s ∧
      |s - (∑ j ∈ Finset.Ico (i + 1 - p) (i + 1), a j) / ((min p (i + 1) : Nat) : ℚ)| ≤ (i + 2) * 2 ^ (e - 53) := by
  obtain ⟨s, hs, es⟩ := runSum_drift (p := p) he he' h hM hb (i + 1) hi
  have h0 : 0 ≤ M := (abs_nonneg _).trans (hM i hi)
  have hS := abs_winSum_le (p := p) (m := i + 1) hM h0 (by omega)
  have hd : (0 : ℚ) < 2 ^ (e - 54) := zpow_pos (by norm_num) _
  rw [two_zpow_sub] at *
  set δ : ℚ := 2 ^ (e - 54) with hδ
  set S := ∑ j ∈ Finset.Ico (i + 1 - p) (i + 1), a j
  have ec : (if p ≤ i then (p : Int) else (i : Int) + 1) = ((min p (i + 1) : Nat) : Int) := by split <;> omega
  have hc1 : 1 ≤ min p (i + 1) := by omega
  have hcv : (fl ((min p (i + 1) : Nat) : Int) : B64).val = .fin ((min p (i + 1) : Nat) : ℚ) := by
    have := B64.val_fl ((min p (i + 1) : Nat) : Int) (by rw [abs_of_nonneg (by omega)]; omega)
    simpa using this
  set c : ℚ := ((min p (i + 1) : Nat) : ℚ) with hc
  have hc1' : 1 ≤ c := by rw [hc]; exact_mod_cast hc1
  have hmn : ((i + 1 : Nat) : ℚ) ≤ n := by exact_mod_cast hi
  have hmd : ((i + 1 : Nat) : ℚ) * (2 * δ) ≤ n * (2 * δ) := mul_le_mul_of_nonneg_right hmn (by linarith)
  have hse : |s| ≤ 2 ^ e := by
    rw [abs_le] at *
    constructor <;> linarith
  have hq : |s / c| ≤ 2 ^ e := by
    rw [abs_div, abs_of_pos (by linarith : (0 : ℚ) < c), div_le_iff₀ (by linarith)]
    have := zpow_pos (by norm_num : (0 : ℚ) < 2) e
    nlinarith
  obtain ⟨t, ht, -, et⟩ := round64_error he he' hq
  have hval : (runSum p x (i + 1) /. fl (if p ≤ i then (p : Int) else (i : Int) + 1)).val = .fin t := by
    rw [ec, B64.val_div hs hcv (by linarith)]; exact ht
  refine ⟨t, by rw [smaF, smaFix64 hval]; exact hval, ?_⟩
  rw [← hδ] at et
  have hq2 : |s / c - S / c| ≤ ((i + 1 : Nat) : ℚ) * (2 * δ) := by
    rw [← sub_div, abs_div, abs_of_pos (by linarith : (0 : ℚ) < c), div_le_iff₀ (by linarith)]
    refine es.trans ?_
    have : 0 ≤ ((i + 1 : Nat) : ℚ) * (2 * δ) := by positivity
    nlinarith
  push_cast at hq2
  rw [abs_le] at *
  constructor <;> linarith

/-- **C102 (Sma).** Under the same bound the float64 `Sma` at index `i` differs from the exact mean of its window by at
most `(i + 2) 2^(e-53)`. -/
theorem C102_sma_drift {p : Nat} (hp : 1 ≤ p) {e : ℤ} {M : ℚ} {xs : List B64} {as : List ℚ} (he : -1021 ≤ e)
    (he' : e ≤ 970) (hn : as.length ≤ 2 ^ 53)
    (hv : Vals xs as) (hM : ∀ v ∈ as, |v| ≤ M) (hb : (p + 1) * M + as.length * 2 ^ (e - 53) ≤ 2 ^ e) :
    ∃ r, Sma p xs = .ok r ∧ r.length = as.length ∧ ∀ (i : Nat) v, r[i]? = some v →
      ∃ s, v.val = .fin s ∧ |s - mean (window p i as)| ≤ (i + 2) * 2 ^ (e - 53) := by
  obtain ⟨x, a, hx, ha, hxa⟩ := hv.tabs
  refine ⟨tab as.length (smaF p x), ?_, by simp, fun i v hr => ?_⟩
  · rw [hx]; exact Sma_tab _ _ _
  · have hi : i < as.length := by simpa using (List.getElem?_eq_some_iff.mp hr).1
    rw [tab_getElem?_lt hi] at hr
    cases hr
    obtain ⟨s, hs, es⟩ := smaF_drift hp (n := as.length) he he' hn (fun j _ => hxa j)
      (fun j hj => hM _ (by rw [ha]; exact mem_tab.mpr ⟨j, hj, rfl⟩)) hb i hi
    refine ⟨s, hs, ?_⟩
    rw [ha, mean, sum_window_Ico a hi, length_window a hi]
    exact es

/-- The bound in numbers: prices up to `2^20`, period 20, a million candles: the average is off by at most 0.004. -/
example : ((20 : ℕ) + 1) * (2 : ℚ) ^ 20 + 1000000 * 2 ^ ((25 : ℤ) - 53) ≤ 2 ^ (25 : ℤ) ∧
    (1000000 + 1) * (2 : ℚ) ^ ((25 : ℤ) - 53) ≤ 0.004 := by norm_num

/-- Whatever leaves the window stays in the sum as a rounding error: the average of 1, 1 comes out as 0. -/
theorem C102_sma_refuted : ∃ r, Sma 2 ([fl (10 ^ 17), fl 1, fl 1, fl 1] : List B64) = .ok r ∧
    Vals r [10 ^ 17, 10 ^ 17 / 2, 0, 0] := ⟨_, rfl, by decide +kernel⟩

/-- **C102 (StochasticOscillator).** `%D`, the running average of three `%K`, lies between 0 and 100 up to `(i + 2) 2^-44`
at candle `i`, for series of up to `2^50` candles. -/
theorem C102_stochastic_d_partial {p : Nat} (hp : 1 ≤ p) {it : Item B64} {bs : List (Bar ℚ)} (hb : Holds64 it bs)
    (hn : bs.length ≤ 2 ^ 50) (hw : ∀ b ∈ bs, 0 ≤ b.l ∧ b.l ≤ b.c ∧ b.c ≤ b.h) {d : List (KD B64)}
    (hd : (Stoch p).data it = .ok d) {i : Nat} {r : KD B64} (hr : d[i]? = some r) :
    ∃ v, r.d.val = .fin v ∧ -((i + 2) * 2 ^ (-44 : ℤ)) ≤ v ∧ v ≤ 100 + (i + 2) * 2 ^ (-44 : ℤ) := by
  obtain ⟨x, b, hx, hbs, hc, -⟩ := hb.cols
  have hK : ∀ j < bs.length, Pct (stochK (p : Int) x j) := by
    intro j hj
    obtain ⟨-, rfl⟩ := yields_inv (Stoch.appends p).yields hx hd
    exact C99_stochastic_k hp hb hw hd (mem_tab.mpr ⟨j, hj, rfl⟩)
  obtain ⟨hi, -, rfl⟩ := at64 (Stoch.appends p).yields hx hd hr
  have : ∀ j, ∃ q : ℚ, j < bs.length → (stochK (p : Int) x j).val = .fin q ∧ 0 ≤ q ∧ q ≤ 100 := by
    intro j
    by_cases hj : j < bs.length
    · obtain ⟨q, hq⟩ := hK j hj
      exact ⟨q, fun _ => hq⟩
    · exact ⟨0, fun h => absurd h hj⟩
  choose a ha using this
  have hnq : (bs.length : ℚ) ≤ 1125899906842624 := by exact_mod_cast hn
  obtain ⟨s, hs, es⟩ := smaF_drift (p := 3) (by norm_num) (e := 9) (M := 100) (n := bs.length) (by norm_num) (by norm_num)
    (by omega) (fun j hj => (ha j hj).1) (fun j hj => by rw [abs_of_nonneg (ha j hj).2.1]; exact (ha j hj).2.2)
    (by norm_num; linarith) i hi
  refine ⟨s, hs, ?_⟩
  have hc1 : (0 : ℚ) < ((min 3 (i + 1) : Nat) : ℚ) := by exact_mod_cast (show 0 < min 3 (i + 1) by omega)
  have h0 : 0 ≤ (∑ j ∈ Finset.Ico (i + 1 - 3) (i + 1), a j) / ((min 3 (i + 1) : Nat) : ℚ) :=
    div_nonneg (Finset.sum_nonneg fun j hj => (ha j (by have := (Finset.mem_Ico.mp hj).2; omega)).2.1) hc1.le
  have h1 : (∑ j ∈ Finset.Ico (i + 1 - 3) (i + 1), a j) / ((min 3 (i + 1) : Nat) : ℚ) ≤ 100 := by
    rw [div_le_iff₀ hc1]
    refine (Finset.sum_le_card_nsmul _ _ 100 fun j hj => (ha j (by have := (Finset.mem_Ico.mp hj).2; omega)).2.2).trans ?_
    rw [Nat.card_Ico, nsmul_eq_mul, mul_comm]
    refine mul_le_mul_of_nonneg_left ?_ (by norm_num)
    exact_mod_cast (show i + 1 - (i + 1 - 3) ≤ min 3 (i + 1) by omega)
  rw [show (9 : ℤ) - 53 = -44 by norm_num, abs_le] at es
  generalize ((i : ℚ) + 2) * 2 ^ (-44 : ℤ) = ε at *
  constructor <;> linarith

/-- Bars from high, low, close. -/
def hlc64 (l : List (ℚ × ℚ × ℚ)) : List (Bar ℚ) := l.map fun (h, l, c) => ⟨c, h, l, c, 1⟩

example : Holds64 (item64 (hlc64 [(9, 2, 9), (5, 3, 5), (6, 1, 6)])) (hlc64 [(9, 2, 9), (5, 3, 5), (6, 1, 6)]) ∧
    (∀ b ∈ hlc64 [(9, 2, 9), (5, 3, 5), (6, 1, 6)], 0 ≤ b.l ∧ b.l ≤ b.c ∧ b.c ≤ b.h) ∧
    ((Stoch 2).data (item64 (hlc64 [(9, 2, 9), (5, 3, 5), (6, 1, 6)]))).map (List.length) = .ok 3 :=
  ⟨holds_item64 (by decide +kernel), by decide +kernel, by decide +kernel⟩

/-- Exactly 0..100 is false for `%D`: five candles with whole prices give `100 + 2^-46`, six others give a negative
number. -/
theorem C102_stochastic_d_refuted :
    ((Stoch 2).data (item64 (hlc64 [(9, 2, 9), (5, 3, 5), (6, 1, 6), (9, 5, 9), (9, 7, 9)]))).map
      (fun d => d[4]?.map fun r => r.d.val) = .ok (some (.fin (100 + 1 / 2 ^ 46))) ∧
    ((Stoch 2).data (item64 (hlc64 [(8, 5, 8), (7, 6, 7), (14, 8, 14), (12, 5, 5), (2, 1, 1), (6, 1, 1)]))).map
      (fun d => d[5]?.map fun r => r.d.val) = .ok (some (.fin (-6004799503160661 / 2 ^ 99))) := by
  constructor <;> decide +kernel

end Verif.Props
