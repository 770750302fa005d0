import Verif.Props.TaAvg

/-!
# C27 - C31, C35: true range, element-wise helpers, crossings
-/

set_option linter.unusedSectionVars false

namespace Verif.Props
open Verif Verif.Ta GoFloat XF

variable {F : Type} [GoFloat F] {K : Type} [Field K] [LinearOrder K]

/-! ## C27

Three slices of one length `n` are written `tab n h`, `tab n l`, `tab n c`. -/

/-- Largest of the three distances that make up a true range. -/
def trueRange {K : Type} [Field K] [LinearOrder K] (high low prevClose : K) : K :=
  max (max (high - low) |prevClose - high|) |prevClose - low|

/-- **C27.** `TRange` and `TrueRange` agree on all float64 slices and never panic on slices of one
length. In exact arithmetic entry 0 is 0 and entry `i+1` is the largest of `high-low`,
`|prevClose-high|`, `|prevClose-low|`. -/
theorem C27_true_range [IsStrictOrderedRing K] (n : Nat) (h l c : Nat → K) :
    (∀ hs ls cs : List F, TrueRange hs ls cs = TRange hs ls cs) ∧
    (∀ x y z : Nat → F, ∃ r, TRange (tab n x) (tab n y) (tab n z) = .ok r ∧ r.length = n) ∧
    ∃ tr : Nat → K, TRange (fins (tab n h)) (fins (tab n l)) (fins (tab n c)) = .ok (fins (tab n tr)) ∧
      tr 0 = 0 ∧ ∀ i, tr (i + 1) = trueRange (h (i + 1)) (l (i + 1)) (c i) := by
  refine ⟨fun _ _ _ => rfl, fun x y z => ⟨_, TRange_tab _ _ _ _, by simp⟩, trK h l c, ?_, rfl,
    fun i => rfl⟩
  rw [fins_tab, fins_tab, fins_tab, fins_tab, TRange_tab, trF_fin]

/-- **C27 (dominates).** For a candle with `low <= high` the true range is `>= 0` and at least the
distance between any two prices taken from the candle or equal to the previous close. -/
theorem C27_dominates [IsStrictOrderedRing K] (high low pc u v : K) (hlh : low ≤ high)
    (hu : (low ≤ u ∧ u ≤ high) ∨ u = pc) (hv : (low ≤ v ∧ v ≤ high) ∨ v = pc) :
    0 ≤ trueRange high low pc ∧ |u - v| ≤ trueRange high low pc := by
  have h1 : high - low ≤ trueRange high low pc := le_trans (le_max_left _ _) (le_max_left _ _)
  have h2 : |pc - high| ≤ trueRange high low pc := le_trans (le_max_right _ _) (le_max_left _ _)
  have h3 : |pc - low| ≤ trueRange high low pc := le_max_right _ _
  have h2' := abs_le.mp h2
  have h3' := abs_le.mp h3
  refine ⟨by linarith, abs_le.mpr ?_⟩
  rcases hu with hu | hu <;> rcases hv with hv | hv <;> constructor <;> linarith [hu, hv, hlh]

example : TRange (fins [5, 6, 4] : List (XF ℚ)) (fins [3, 5, 2]) (fins [4, 5, 3])
    = .ok (fins [0, 2, 3]) := by decide +kernel

/-! ## C28 -/

/-- Sum of the true ranges at indices `1 .. p-1`. -/
def trSum {K : Type} [Field K] (p : Nat) (tr : Nat → K) : K :=
  ∑ j ∈ Finset.range (p - 1), tr (j + 1)

theorem rmaK_sum (p : Nat) (a : Nat → K) (k : Nat) (h : k < p) :
    (rmaK p a k).1 = ∑ j ∈ Finset.range k, a (j + 1) := by
  induction k with
  | zero => rfl
  | succ k ih =>
    rw [rmaK, if_pos h]
    simp only
    rw [ih (by omega), Finset.sum_range_succ]

theorem rmaK_at [IsStrictOrderedRing K] {p : Nat} (hp : 2 ≤ p) (a : Nat → K) :
    (rmaK p a p).2 = (trSum p a / p * ((p : K) - 1) + a p) / p := by
  obtain ⟨q, rfl⟩ : ∃ q, p = q + 2 := ⟨p - 2, by omega⟩
  have h1 := rmaK_sum (q + 2) a (q + 1) (by omega)
  rw [rmaK, if_neg (by omega)]
  simp only
  have h2 : (rmaK (q + 2) a (q + 1)).2 = (rmaK (q + 2) a (q + 1)).1 / ((q : K) + 2) := by
    rw [rmaK, if_pos (by omega)]
  rw [h2, h1, trSum]
  push_cast
  rfl

/-- **C28.** For `p >= 2` and candle series of one length `n`: `Atr` panics exactly when `n <= p`.
Otherwise, in exact arithmetic, entries before index `p` are 0, the first entry is the Wilder step
from the warm-up value `(TR_1 + .. + TR_{p-1})/p`, later entries are
`((p-1)*previous + TR)/p`. -/
theorem C28_atr_recursion [IsStrictOrderedRing K] (p : Nat) (hp : 2 ≤ p) (n : Nat) (h l c : Nat → K) :
    (n ≤ p → ∀ x y z : Nat → F, Atr (tab n x) (tab n y) (tab n z) p = .error .index) ∧
    (p < n → ∃ tr atr : Nat → K,
      TRange (fins (tab n h)) (fins (tab n l)) (fins (tab n c)) = .ok (fins (tab n tr)) ∧
      Atr (fins (tab n h)) (fins (tab n l)) (fins (tab n c)) p = .ok (fins (tab n atr)) ∧
      (∀ i < p, atr i = 0) ∧
      atr p = (((p : K) - 1) * (trSum p tr / p) + tr p) / p ∧
      ∀ i, p ≤ i → atr (i + 1) = (((p : K) - 1) * atr i + tr (i + 1)) / p) := by
  constructor
  · intro hn x y z
    rw [Atr_tab p n hp, if_neg (by omega)]
  · intro hn
    refine ⟨trK h l c, fun i => if i < p then 0 else
      wilderK p (rmaK p (trK h l c) p).2 (trK h l c) (i - p), ?_, ?_, ?_, ?_, ?_⟩
    · rw [fins_tab, fins_tab, fins_tab, fins_tab, TRange_tab, trF_fin]
    · rw [fins_tab, fins_tab, fins_tab, fins_tab, Atr_tab p n hp, if_pos hn]
      exact congrArg _ (tab_ext fun i _ => atrF_fin (by omega) h l c i)
    · intro i hi; simp [hi]
    · simp only [Nat.lt_irrefl, if_false, Nat.sub_self, wilderK]
      rw [rmaK_at hp]; ring
    · intro i hi
      have h1 : ¬ i < p := by omega
      have h2 : ¬ i + 1 < p := by omega
      have h3 : i + 1 - p = (i - p) + 1 := by omega
      have h4 : p + (i - p + 1) = i + 1 := by omega
      simp only [h1, h2, if_false, h3, wilderK, h4]
      ring

/-- **C28 (bounds).** With `low <= high` throughout, every `Atr` entry is `>= 0` and at most any
bound on the true ranges so far. -/
theorem C28_atr_bounds [IsStrictOrderedRing K] (p : Nat) (hp : 2 ≤ p) (n : Nat) (h l c : Nat → K)
    (hlh : ∀ i, l i ≤ h i) (tr atr : Nat → K)
    (h1 : TRange (fins (tab n h)) (fins (tab n l)) (fins (tab n c)) = .ok (fins (tab n tr)))
    (h2 : Atr (fins (tab n h)) (fins (tab n l)) (fins (tab n c)) p = .ok (fins (tab n atr)))
    (i : Nat) (hi : i < n) (B : K) (hB : ∀ j ≤ i, tr j ≤ B) : 0 ≤ atr i ∧ atr i ≤ B := by
  rw [fins_tab, fins_tab, fins_tab, TRange_tab] at h1
  rw [fins_tab, fins_tab, fins_tab, Atr_tab p n hp] at h2
  have htr : ∀ j < n, tr j = trK h l c j := fun j hj => by
    have := tab_inj ((Except.ok.inj h1).trans (fins_tab n tr)) hj
    rw [show trF (fun i => XF.fin (h i)) (fun i => XF.fin (l i)) (fun i => XF.fin (c i))
      = finF (trK h l c) from trF_fin h l c] at this
    exact (XF.fin_inj.mp this).symm
  have hnn : ∀ j, 0 ≤ trK h l c j := fun j => by
    cases j with
    | zero => exact le_refl _
    | succ k =>
      exact (C27_dominates (h (k + 1)) (l (k + 1)) (c k) (c k) (c k) (hlh _) (.inr rfl) (.inr rfl)).1
  have hB0 : 0 ≤ B := by
    have := hB 0 (by omega)
    rw [htr 0 (by omega)] at this
    exact this
  split at h2
  · next hpn =>
    have hat : atr i = if i < p then 0 else
        wilderK p (rmaK p (trK h l c) p).2 (trK h l c) (i - p) := by
      have := tab_inj ((Except.ok.inj h2).trans (fins_tab n atr)) hi
      rw [show atrF p (fun i => XF.fin (h i)) (fun i => XF.fin (l i)) (fun i => XF.fin (c i)) i
        = _ from atrF_fin (by omega) h l c i] at this
      exact (XF.fin_inj.mp this).symm
    rw [hat]
    by_cases hip : i < p
    · simp [hip, hB0]
    · rw [if_neg hip]
      have hp1 : (1 : K) ≤ (p : K) := by exact_mod_cast (by omega : 1 ≤ p)
      have hpos : (0 : K) < (p : K) := by linarith
      have hBt : ∀ j ≤ i, trK h l c j ≤ B := fun j hj => by
        rw [← htr j (by omega)]; exact hB j hj
      have step : ∀ a t : K, 0 ≤ a → a ≤ B → 0 ≤ t → t ≤ B →
          0 ≤ (a * ((p : K) - 1) + t) / p ∧ (a * ((p : K) - 1) + t) / p ≤ B := by
        intro a t ha1 ha2 ht1 ht2
        have := mul_le_mul_of_nonneg_right ha2 (sub_nonneg.mpr hp1)
        refine ⟨div_nonneg (add_nonneg (mul_nonneg ha1 (by linarith)) ht1) hpos.le, ?_⟩
        rw [div_le_iff₀ hpos]; nlinarith
      have gen : ∀ m, p + m ≤ i → 0 ≤ wilderK p (rmaK p (trK h l c) p).2 (trK h l c) m ∧
          wilderK p (rmaK p (trK h l c) p).2 (trK h l c) m ≤ B := by
        intro m
        induction m with
        | zero =>
          intro hm
          rw [wilderK, rmaK_at hp]
          have hs0 : 0 ≤ trSum p (trK h l c) := Finset.sum_nonneg fun j _ => hnn _
          have hs1 : trSum p (trK h l c) ≤ ((p - 1 : Nat) : K) * B := by
            have := Finset.sum_le_card_nsmul (Finset.range (p - 1)) (fun j => trK h l c (j + 1)) B
              (fun j hj => hBt _ (by rw [Finset.mem_range] at hj; omega))
            simpa [trSum, nsmul_eq_mul] using this
          apply step
          · exact div_nonneg hs0 hpos.le
          · rw [div_le_iff₀ hpos]
            have hc : ((p - 1 : Nat) : K) ≤ (p : K) := by exact_mod_cast Nat.sub_le p 1
            nlinarith
          · exact hnn _
          · exact hBt _ (by omega)
        | succ m ih =>
          intro hm
          rw [wilderK]
          obtain ⟨i1, i2⟩ := ih (by omega)
          exact step _ _ i1 i2 (hnn _) (hBt _ (by omega))
      exact gen (i - p) (by omega)
  · cases h2

example : Atr (fins [5, 6, 4, 8] : List (XF ℚ)) (fins [3, 5, 2, 4]) (fins [4, 5, 3, 6]) 2
    = .ok (fins [0, 0, 2, 7 / 2]) := by decide +kernel
example : Atr (fins [5, 6] : List (XF ℚ)) (fins [3, 5]) (fins [4, 5]) 2 = .error .index := by
  decide +kernel

/-! ## C29 -/

/-- **C29 (Divide).** Whatever the two slices contain, `Divide` never returns NaN or an infinity
(for any float arithmetic in which 0 is a number), has the length of the first slice, and panics
exactly when the second slice is shorter. -/
theorem C29_divide_clean (h0 : isNaN (fl 0 : F) = false ∧ isInf (fl 0 : F) = false) (xs ys : List F) :
    (xs.length ≤ ys.length → ∃ r, Divide xs ys = .ok r ∧ r.length = xs.length ∧
      ∀ v ∈ r, isNaN v = false ∧ isInf v = false) ∧
    (ys.length < xs.length → Divide xs ys = .error .index) := by
  obtain ⟨x, hx⟩ := exists_tabF xs
  obtain ⟨y, hy⟩ := exists_tabF ys
  generalize xs.length = n at hx ⊢
  generalize ys.length = m at hy ⊢
  subst hx hy
  rw [Divide_tab]
  refine ⟨fun h => ⟨_, if_pos h, by simp, fun v hv => ?_⟩, fun h => by rw [if_neg (by omega)]⟩
  obtain ⟨i, hi⟩ := List.mem_iff_getElem?.mp hv
  rw [tab_getElem?] at hi
  split at hi <;> simp at hi
  subst hi
  unfold safeDiv
  split
  · exact h0
  · next h => simpa using h

/-- **C29 (exact Divide).** In exact arithmetic the entries are the quotients, 0 where the
denominator is 0. -/
theorem C29_divide_exact (n : Nat) (a b : Nat → K) :
    Divide (fins (tab n a)) (fins (tab n b))
      = .ok (fins (tab n fun i => if b i = 0 then 0 else a i / b i)) := by
  rw [fins_tab, fins_tab, fins_tab, Divide_tab, if_pos (le_refl _)]
  refine congrArg _ (tab_ext fun i _ => ?_)
  rw [safeDiv_fin_eq]
  split
  · next h => simp [h]
  · rfl

/-- **C29 (element-wise).** `Add`, `Multiply` and `Subtract` return the element-wise result with the
length of the first slice, and panic exactly when the second slice is shorter. -/
theorem C29_elementwise (xs ys : List F) :
    Add xs ys = (if xs.length ≤ ys.length then .ok (List.zipWith (· +. ·) xs ys) else .error .index) ∧
    Multiply xs ys
      = (if xs.length ≤ ys.length then .ok (List.zipWith (· *. ·) xs ys) else .error .index) ∧
    Subtract xs ys = (if xs.length ≤ ys.length
      then .ok (List.zipWith (fun a b => a +. b *. fl (-1)) xs ys) else .error .index) := by
  obtain ⟨x, hx⟩ := exists_tabF xs
  obtain ⟨y, hy⟩ := exists_tabF ys
  generalize xs.length = n at hx ⊢
  generalize ys.length = m at hy ⊢
  subst hx hy
  rw [Add_tab, Multiply_tab, Subtract_tab, zipWith_tab, zipWith_tab, zipWith_tab]
  refine ⟨?_, ?_, ?_⟩ <;> split
  all_goals first | rfl | skip
  all_goals
    next h => rw [Nat.min_eq_left h]; try rfl

/-- **C29 (exact Subtract).** In exact arithmetic `Subtract` is the difference. -/
theorem C29_subtract_exact (n : Nat) (a b : Nat → K) :
    Subtract (fins (tab n a)) (fins (tab n b)) = .ok (fins (tab n fun i => a i - b i)) := by
  rw [fins_tab, fins_tab, fins_tab, Subtract_tab, if_pos (le_refl _)]
  exact congrArg _ (tab_ext fun i _ => subF_fin _ _)

example : isNaN (fl 0 : XF ℚ) = false ∧ isInf (fl 0 : XF ℚ) = false := by decide +kernel
example : Divide [.fin 1, .nan, .pinf, .fin 6] [.fin 0, .fin 1, .fin 1, .fin 3]
    = .ok (fins [0, 0, 0, 2] : List (XF ℚ)) := by decide +kernel
example : Add (fins [1, 2] : List (XF ℚ)) (fins [1]) = .error .index := by decide +kernel

/-! ## C30 -/

/-- **C30 (shift).** `ShiftRight(p, xs)` for `p >= 0` is `p` zeros followed by the series, cut to
its length; a negative shift panics on every non-empty series. -/
theorem C30_shift (xs : List F) :
    (∀ p : Nat, ShiftRight p xs = .ok ((List.replicate p (fl 0) ++ xs).take xs.length)) ∧
    (∀ p : Int, p < 0 → xs ≠ [] → ShiftRight p xs = .error .index) := by
  obtain ⟨x, hx⟩ := exists_tabF xs
  constructor
  · intro p
    have hl : ((List.replicate p (fl 0 : F) ++ xs).take xs.length).length = xs.length := by simp
    have : (List.replicate p (fl 0 : F) ++ xs).take xs.length = tab xs.length (shiftF p (fl 0) x) := by
      refine eq_tab_of_forall hl fun i hi => ?_
      rw [List.getElem?_take, if_pos hi, List.getElem?_append, List.length_replicate, shiftF]
      split
      · next h => simp [h]
      · conv_lhs => rw [hx]
        exact tab_getElem?_lt (by omega)
    rw [this]
    conv_lhs => rw [hx]
    exact ShiftRight_tab _ _ _
  · intro p hp hne
    rw [hx]
    exact ShiftRightAndFillBy_neg hp _ _ _ (List.length_pos_of_ne_nil hne)

/-- **C30 (differences).** In exact arithmetic `Diff(xs, p)` is the change over `p` steps (the value
itself for the first `p` entries, which are compared with 0) and `PercentDiff(xs, p)` the relative
change, 0 for the first `p` entries. -/
theorem C30_diff (p n : Nat) (a : Nat → K) :
    Diff (fins (tab n a)) p = .ok (fins (tab n fun i => if i < p then a i else a i - a (i - p))) ∧
    ((∀ i, a i ≠ 0) → PercentDiff (fins (tab n a)) p
      = .ok (fins (tab n fun i => if i < p then 0 else (a i - a (i - p)) / a (i - p)))) := by
  constructor
  · rw [fins_tab, fins_tab, Diff_tab]
    refine congrArg _ (tab_ext fun i _ => ?_)
    rw [shiftF]
    split
    · rw [fl_fin, subF_fin]; simp
    · rw [subF_fin]
  · intro h0
    rw [fins_tab, fins_tab, PercentDiff_tab]
    refine congrArg _ (tab_ext fun i _ => ?_)
    rw [percentDiffF]
    split
    · simp
    · rw [sub_fin, div_fin (h0 _)]

example : Diff (fins [1, 3, 6] : List (XF ℚ)) 1 = .ok (fins [1, 2, 3]) ∧
    PercentDiff (fins [1, 3, 6] : List (XF ℚ)) 1 = .ok (fins [0, 2, 1]) ∧
    ShiftRight (-1) (fins [1, 3] : List (XF ℚ)) = .error .index := by decide +kernel

/-! ## C31 -/

/-- **C31.** On every series without NaN (infinities included): `KeepPositives` and `KeepNegatives`
are `>= 0` and `<= 0` and add up to the series, and `ExtractSign` times `Abs` is the series, with
sign `+1` exactly on values `>= 0`. -/
theorem C31_parts_recombine [IsStrictOrderedRing K] (xs : List (XF K)) (hg : ∀ v ∈ xs, v ≠ .nan) :
    ∃ ps ns ss as, KeepPositives xs = .ok ps ∧ KeepNegatives xs = .ok ns ∧
      ExtractSign xs = .ok ss ∧ Abs xs = .ok as ∧
      (∀ v ∈ ps, (fl 0 <=. v) = true) ∧ (∀ v ∈ ns, (v <=. fl 0) = true) ∧
      Add ps ns = .ok xs ∧ Multiply ss as = .ok xs ∧
      ss = xs.map fun v => if (fl 0 <=. v) then fl 1 else fl (-1) := by
  obtain ⟨x, hx⟩ := exists_tabF xs
  have hg' : ∀ i < xs.length, x i ≠ .nan := fun i hi => by
    apply hg
    rw [hx]; exact List.mem_of_getElem? (tab_getElem?_lt hi)
  generalize xs.length = n at hx hg'
  subst hx
  refine ⟨_, _, _, _, KeepPositives_tab _ _, KeepNegatives_tab _ _, ExtractSign_tab _ _, Abs_tab _ _,
    ?_, ?_, ?_, ?_, ?_⟩
  · intro v hv
    obtain ⟨i, hi⟩ := List.mem_iff_getElem?.mp hv
    rw [tab_getElem?] at hi
    split at hi <;> simp only [Option.some.injEq, reduceCtorEq] at hi
    subst hi
    split
    · next h => show (XF.lt _ _ || XF.eq _ _) = true; rw [show XF.lt (fl 0) (x i) = true from h]; rfl
    · show (XF.lt _ _ || XF.eq _ _) = true; simp [XF.eq, fl, XF.lt]
  · intro v hv
    obtain ⟨i, hi⟩ := List.mem_iff_getElem?.mp hv
    rw [tab_getElem?] at hi
    split at hi <;> simp only [Option.some.injEq, reduceCtorEq] at hi
    subst hi
    split
    · next h => show (XF.lt _ _ || XF.eq _ _) = true; rw [show XF.lt (x i) (fl 0) = true from h]; rfl
    · show (XF.lt _ _ || XF.eq _ _) = true; simp [XF.eq, fl, XF.lt]
  · rw [Add_tab, if_pos (le_refl _)]
    refine congrArg _ (tab_ext fun i hi => ?_)
    have := hg' i hi
    cases hxi : x i with
    | nan => exact absurd hxi this
    | pinf => rfl
    | ninf => rfl
    | fin a =>
      have e0 : (fl 0 : XF K) = .fin 0 := by simp
      simp only [GoFloat.gt, e0, lt_fin]
      rcases lt_trichotomy a 0 with h | h | h
      · simp [h, not_lt.mpr h.le]
      · simp [h]
      · simp [h, not_lt.mpr h.le]
  · rw [Multiply_tab, if_pos (le_refl _)]
    refine congrArg _ (tab_ext fun i hi => ?_)
    have := hg' i hi
    have e0 : (fl 0 : XF K) = .fin 0 := by simp
    have e1 : (fl 1 : XF K) = .fin 1 := by simp
    have em : (fl (-1) : XF K) = .fin (-1) := by simp
    simp only [GoFloat.ge, e0, e1, em]
    cases hxi : x i with
    | nan => exact absurd hxi this
    | pinf => 
      show XF.mul (if (XF.lt _ _ || XF.eq _ _) then _ else _) XF.pinf = _
      simp [XF.lt, XF.mul, infSign]
    | ninf =>
      show XF.mul (if (XF.lt _ _ || XF.eq _ _) then _ else _) XF.pinf = _
      simp [XF.lt, XF.eq, XF.mul, infSign]
    | fin a =>
      rw [abs_fin', le_fin]
      by_cases h : 0 ≤ a
      · simp [h, abs_of_nonneg h]
      · simp [h, abs_of_neg (not_le.mp h)]
  · rw [map_tab]

example : KeepPositives (fins [3, -2, 0] : List (XF ℚ)) = .ok (fins [3, 0, 0]) ∧
    ExtractSign (fins [3, -2, 0] : List (XF ℚ)) = .ok (fins [1, -1, 1]) := by decide +kernel

/-! ## C35 -/

/-- **C35.** For slices with at least two values `.., b, a` and any float arithmetic: `CrossOver` is
`a > level && b < level`, `CrossUnder` is `a < level && b > level`, and when `<` is asymmetric (as for
float64, NaN included) they are never both true. An empty slice panics; a single value `a` panics
exactly when the first comparison already holds. -/
theorem C35_cross (s : F) :
    (∀ (xs : List F) (b a : F), CrossOver (xs ++ [b, a]) s = .ok (decide (s <. a ∧ b <. s)) ∧
      CrossUnder (xs ++ [b, a]) s = .ok (decide (a <. s ∧ s <. b))) ∧
    ((∀ u v : F, (u <. v) = true → (v <. u) = false) →
      ∀ xs, ¬ (CrossOver xs s = .ok true ∧ CrossUnder xs s = .ok true)) ∧
    (CrossOver [] s = .error .index ∧ CrossUnder [] s = .error .index) ∧
    ∀ a, CrossOver [a] s = (if s <. a then .error .index else .ok false) ∧
      CrossUnder [a] s = (if a <. s then .error .index else .ok false) := by
  have two : ∀ (xs : List F) (b a : F), CrossOver (xs ++ [b, a]) s = .ok (decide (s <. a ∧ b <. s)) ∧
      CrossUnder (xs ++ [b, a]) s = .ok (decide (a <. s ∧ s <. b)) := by
    intro xs b a
    have e1 : (((xs ++ [b, a]).length : Nat) : Int) - 1 = ((xs.length + 1 : Nat) : Int) := by
      simp; omega
    have e2 : (((xs ++ [b, a]).length : Nat) : Int) - 2 = ((xs.length : Nat) : Int) := by
      simp
    unfold CrossOver CrossUnder
    rw [e1, e2, idx_of_getElem? (v := a) (by simp), idx_of_getElem? (v := b) (by simp)]
    simp only [ok_bind, pure_eq_ok]
    constructor
    · cases h : (s <. a) <;> simp [h]
    · cases h : (a <. s) <;> simp
  have nil : CrossOver [] s = .error .index ∧ CrossUnder [] s = .error .index := ⟨rfl, rfl⟩
  have one : ∀ a, CrossOver [a] s = (if s <. a then .error .index else .ok false) ∧
      CrossUnder [a] s = (if a <. s then .error .index else .ok false) := by
    intro a
    constructor <;> rfl
  refine ⟨two, ?_, nil, one⟩
  rintro hasym xs ⟨h1, h2⟩
  rcases List.eq_nil_or_concat xs with rfl | ⟨ys, a, rfl⟩
  · rw [nil.1] at h1; cases h1
  · rcases List.eq_nil_or_concat ys with rfl | ⟨zs, b, rfl⟩
    · simp only [List.concat_eq_append, List.nil_append] at h1
      rw [(one a).1] at h1
      split at h1 <;> simp at h1
    · have e : (zs.concat b).concat a = zs ++ [b, a] := by simp
      rw [e, (two zs b a).1] at h1
      rw [e, (two zs b a).2] at h2
      simp only [Except.ok.injEq, decide_eq_true_eq] at h1 h2
      rw [hasym _ _ h1.1] at h2
      simp at h2

/-- Exact numbers with the special values satisfy the asymmetry hypothesis. -/
theorem C35_asymm (u v : XF K) (h : (u <. v) = true) : (v <. u) = false := by
  change XF.lt u v = true at h
  change XF.lt v u = false
  cases u <;> cases v <;> simp_all [XF.lt]
  exact le_of_lt h

example : CrossOver (fins [1, 3] : List (XF ℚ)) (.fin 2) = .ok true ∧
    CrossUnder (fins [1, 3] : List (XF ℚ)) (.fin 2) = .ok false := by decide +kernel

end Verif.Props
