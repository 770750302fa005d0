import Verif.Props.TaReg
import Verif.Props.TaElem
import Verif.Ta.Misc

/-!
# C91 - C94: totals and deviations, regression angle, rounding, normalised range

Exact arithmetic.
-/

set_option linter.unusedSectionVars false

namespace Verif.Props
open Verif Verif.Ta GoFloat XF

variable {K : Type} [Field K] [LinearOrder K] [IsStrictOrderedRing K]

/-! ## C91 -/

theorem foldl_add_fin (xs : List K) (s : K) :
    (fins xs).foldl (fun t v => t +. v) (XF.fin s) = .fin (s + xs.sum) := by
  induction xs generalizing s with
  | nil => simp [fins]
  | cons a l ih =>
    show (fins l).foldl _ (XF.fin s +. XF.fin a) = _
    rw [add_fin, ih, List.sum_cons, add_assoc]

/-- **C91**, `Cum` and `Mean`: the sum and the arithmetic mean of the slice; the mean of the empty slice is NaN. -/
theorem C91_mean (xs : List K) :
    Cum (fins xs) = .fin xs.sum ∧ (xs ≠ [] → Mean (fins xs) = .fin (mean xs)) ∧ (xs = [] → Mean (fins xs) = .nan) := by
  have f0 : (fl 0 : XF K) = .fin 0 := by simp
  have hs : (fins xs).foldl (fun t v => t +. v) (fl 0) = XF.fin xs.sum := by rw [f0, foldl_add_fin, zero_add]
  refine ⟨hs, fun hne => ?_, ?_⟩
  · rw [Mean, hs, show (fins xs).length = xs.length from List.length_map _, fl_nat,
      div_fin (natCast_ne (List.length_pos_iff.mpr hne)), mean]
  · rintro rfl
    rw [Mean, hs]
    simp [fins, GoFloat.div, XF.div, infSign]

example : Mean (fins [1, 2, 6] : List (XF ℚ)) = .fin 3 := by decide +kernel

theorem foldl_sq_fin (m : K) (xs : List K) (s : K) :
    (fins xs).foldl (fun t k => let diff := k -. XF.fin m; t +. diff *. diff) (XF.fin s) =
      .fin (s + (xs.map fun x => (x - m) ^ 2).sum) := by
  induction xs generalizing s with
  | nil => simp [fins]
  | cons a l ih =>
    show (fins l).foldl _ (XF.fin s +. (XF.fin a -. XF.fin m) *. (XF.fin a -. XF.fin m)) = _
    rw [sub_fin, mul_fin, add_fin, ih, List.map_cons, List.sum_cons, ← add_assoc]
    congr 2; ring

/-- `SD` of a non-empty slice over the reals. -/
theorem sd_fin {xs : List ℝ} (hne : xs ≠ []) : SD (fins xs) = .fin (Real.sqrt (pvar xs)) := by
  have hl : (fins xs).length = xs.length := List.length_map _
  have h0 : ((xs.length : Nat) : ℝ) ≠ 0 := natCast_ne (List.length_pos_iff.mpr hne)
  have f0 : (fl 0 : XF ℝ) = .fin 0 := by simp
  have hs : (fins xs).foldl (fun t v => t +. v) (fl 0) = XF.fin xs.sum := by rw [f0, foldl_add_fin, zero_add]
  unfold SD
  simp only [hl]
  rw [hs, fl_nat, div_fin h0, f0, foldl_sq_fin, div_fin h0, zero_add]
  exact sqrt_fin (pvar_nonneg xs)

theorem pvar_zero_iff {xs : List K} (hne : xs ≠ []) : pvar xs = 0 ↔ ∀ x ∈ xs, ∀ y ∈ xs, x = y := by
  have hn : (0 : K) < xs.length := by exact_mod_cast List.length_pos_iff.mpr hne
  rw [pvar, div_eq_zero_iff, or_iff_left hn.ne']
  constructor
  · intro h
    have key : ∀ x ∈ xs, x = mean xs := by
      have : ∀ (m : K) (l : List K), (l.map fun v => (v - m) ^ 2).sum = 0 → ∀ x ∈ l, x = m := by
        intro m l
        induction l with
        | nil => intro _ x hx; cases hx
        | cons a l ih =>
          intro h x hx
          rw [List.map_cons, List.sum_cons] at h
          have h2 : 0 ≤ (l.map fun v => (v - m) ^ 2).sum := List.sum_nonneg fun v hv => by
            obtain ⟨y, -, rfl⟩ := List.mem_map.mp hv
            exact sq_nonneg _
          have h1 := sq_nonneg (a - m)
          rcases List.mem_cons.mp hx with rfl | hx
          · have : (x - m) ^ 2 = 0 := by linarith
            exact sub_eq_zero.mp (pow_eq_zero_iff two_ne_zero |>.mp this)
          · exact ih (by linarith) x hx
      exact this _ _ h
    intro x hx y hy
    rw [key x hx, key y hy]
  · intro h
    obtain ⟨a, l, rfl⟩ := List.exists_cons_of_ne_nil hne
    have hall : ∀ x ∈ a :: l, x = a := fun x hx => h x hx a List.mem_cons_self
    have hm : mean (a :: l) = a := by
      have : (a :: l).sum = (a :: l).length * a := by
        have e : a :: l = List.replicate (a :: l).length a := List.eq_replicate_iff.mpr ⟨rfl, hall⟩
        conv_lhs => rw [e]
        rw [List.sum_replicate, nsmul_eq_mul]
      rw [mean, this, mul_div_cancel_left₀ _ hn.ne']
    rw [hm]
    refine List.sum_eq_zero fun v hv => ?_
    obtain ⟨x, hx, rfl⟩ := List.mem_map.mp hv
    rw [hall x hx, sub_self, zero_pow two_ne_zero]

theorem pvar_affine {xs : List K} (hne : xs ≠ []) (c t : K) : pvar (xs.map fun x => c * x + t) = c ^ 2 * pvar xs := by
  have hn : (xs.length : K) ≠ 0 := natCast_ne (List.length_pos_iff.mpr hne)
  have hs : ∀ l : List K, (l.map fun x => c * x + t).sum = c * l.sum + l.length * t := by
    intro l
    induction l with
    | nil => simp
    | cons a l ih => simp only [List.map_cons, List.sum_cons, List.length_cons, ih]; push_cast; ring
  have hm : mean (xs.map fun x => c * x + t) = c * mean xs + t := by
    rw [mean, hs, List.length_map, mean, add_div, mul_div_assoc, mul_div_cancel_left₀ _ hn]
  rw [pvar, hm, List.map_map, List.length_map, pvar, ← mul_div_assoc, ← List.sum_map_mul_left]
  congr 2
  refine List.map_congr_left fun x _ => ?_
  simp only [Function.comp]
  ring

/-- **C91**, `SD`: of a non-empty slice the square root of the population variance (`pvar`: mean squared distance from
the mean); it is 0 exactly when all values are equal, adding a constant does not change it and a factor `c` multiplies it
by `|c|`. Of the empty slice it is NaN. -/
theorem C91_sd (xs : List ℝ) :
    (xs = [] → SD (fins xs) = .nan) ∧
    (xs ≠ [] → ∃ s : ℝ, SD (fins xs) = .fin s ∧ 0 ≤ s ∧ s ^ 2 = pvar xs ∧ (s = 0 ↔ ∀ x ∈ xs, ∀ y ∈ xs, x = y) ∧
      ∀ c t, SD (fins (xs.map fun x => c * x + t)) = .fin (|c| * s)) := by
  constructor
  · rintro rfl
    have e : (fl 0 : XF ℝ) /. fl ((0 : Nat) : Int) = .nan := by simp [GoFloat.div, XF.div, infSign]
    show GoMath.sqrt ((fl 0 : XF ℝ) /. fl ((0 : Nat) : Int)) = _
    rw [e]
    rfl
  · intro hne
    refine ⟨_, sd_fin hne, Real.sqrt_nonneg _, Real.sq_sqrt (pvar_nonneg xs), ?_, fun c t => ?_⟩
    · rw [Real.sqrt_eq_zero (pvar_nonneg xs), pvar_zero_iff hne]
    · rw [sd_fin (by simpa using hne), pvar_affine hne, Real.sqrt_mul (sq_nonneg c), Real.sqrt_sq_eq_abs]

example : ([1, 3] : List ℝ) ≠ [] ∧ pvar ([1, 3] : List ℝ) = 1 := by
  refine ⟨by simp, ?_⟩
  norm_num [pvar, mean]

/-! ## C92 -/

/-- **C92.** For `2 <= p <= len(xs)` `LinearRegAngle` is 0 before index `p - 1`; from there on it is the angle in degrees of the
line whose slope `LinearRegSlope` returns: strictly between -90 and 90, positive exactly for rising and negative exactly
for falling lines, larger for steeper ones, 45 for slope 1. With fewer than `p` values it panics. -/
theorem C92_angle (p : Nat) (hp : 2 ≤ p) (xs : List ℝ) :
    (xs.length < p → LinearRegAngle (fins xs) p = .error .index) ∧
    (p ≤ xs.length → ∃ ms as : Nat → ℝ,
      LinearRegSlope (fins xs) p = .ok (fins (tab xs.length ms)) ∧
      LinearRegAngle (fins xs) p = .ok (fins (tab xs.length as)) ∧
      (∀ i, i + 1 < p → as i = 0) ∧
      ∀ i, p ≤ i + 1 → i < xs.length →
        as i = Real.arctan (ms i) * (180 / Real.pi) ∧ -90 < as i ∧ as i < 90 ∧ (0 < as i ↔ 0 < ms i) ∧
        (as i < 0 ↔ ms i < 0) ∧ (ms i = 1 → as i = 45) ∧
        ∀ j, p ≤ j + 1 → j < xs.length → (as i < as j ↔ ms i < ms j)) := by
  refine onTab (P := fun xs =>
    (xs.length < p → LinearRegAngle (fins xs) p = .error .index) ∧
    (p ≤ xs.length → ∃ ms as : Nat → ℝ,
      LinearRegSlope (fins xs) p = .ok (fins (tab xs.length ms)) ∧
      LinearRegAngle (fins xs) p = .ok (fins (tab xs.length as)) ∧
      (∀ i, i + 1 < p → as i = 0) ∧
      ∀ i, p ≤ i + 1 → i < xs.length →
        as i = Real.arctan (ms i) * (180 / Real.pi) ∧ -90 < as i ∧ as i < 90 ∧ (0 < as i ↔ 0 < ms i) ∧
        (as i < 0 ↔ ms i < 0) ∧ (ms i = 1 → as i = 45) ∧
        ∀ j, p ≤ j + 1 → j < xs.length → (as i < as j ↔ ms i < ms j))) (fun n a => ?_) xs
  rw [fins_tab, tab_length]
  unfold LinearRegSlope LinearRegAngle
  simp only [linRegCore_tab _ p n (by omega : 0 < p)]
  constructor
  · intro h
    simp [show ¬ p ≤ n by omega]
  · intro h
    simp only [h, if_true]
    have hk : 0 < 180 / Real.pi := div_pos (by norm_num) Real.pi_pos
    refine ⟨fun i => if i + 1 < p then 0 else lsSlope p (i + 1 - p) a,
      fun i => if i + 1 < p then 0 else Real.arctan (lsSlope p (i + 1 - p) a) * (180 / Real.pi), ?_, ?_, ?_, ?_⟩
    · rw [fins_tab]
      refine congrArg _ (tab_ext fun i _ => ?_)
      by_cases h2 : i + 1 < p
      · simp [lrF, h2]
      · simp only [h2, if_false]; exact (lrSlope_fin hp a i h2).1
    · rw [fins_tab]
      refine congrArg _ (tab_ext fun i _ => ?_)
      by_cases h2 : i + 1 < p
      · simp [lrF, h2]
      · have := (lrSlope_fin hp a i h2).1
        simp only [lrF, h2, if_false] at this ⊢
        rw [lrAngle, this, atan_fin, degPerRad_eq, mul_fin]
    · intro i hi; simp [hi]
    · intro i hpi hi
      have h2 : ¬ i + 1 < p := by omega
      simp only [h2, if_false]
      generalize lsSlope p (i + 1 - p) a = m
      have hpi0 := Real.pi_pos
      have hlo := Real.neg_pi_div_two_lt_arctan m
      have hhi := Real.arctan_lt_pi_div_two m
      have e90 : Real.pi / 2 * (180 / Real.pi) = 90 := by field_simp; norm_num
      refine ⟨trivial, ?_, ?_, ?_, ?_, ?_, ?_⟩
      · have := mul_lt_mul_of_pos_right hlo hk
        linarith
      · have := mul_lt_mul_of_pos_right hhi hk
        linarith
      · rw [mul_pos_iff_of_pos_right hk, Real.arctan_pos]
      · rw [← Real.arctan_lt_zero (x := m)]
        refine ⟨fun h => ?_, fun h => mul_neg_of_neg_of_pos h hk⟩
        by_contra hc
        have := mul_nonneg (not_lt.mp hc) hk.le
        linarith
      · rintro rfl
        rw [Real.arctan_one]
        linarith
      · intro j hpj hj
        simp only [show ¬ j + 1 < p by omega, if_false]
        rw [mul_lt_mul_iff_left₀ hk, Real.arctan_strictMono.lt_iff_lt]

/-- A rising line of slope 1. -/
example : LinearRegSlope (fins [1, 2, 3] : List (XF ℚ)) 2 = .ok (fins [0, 1, 1]) := by decide +kernel

/-! ## C93 -/

theorem pow10_fin (d : Int) : GoMath.pow (fl 10 : XF ℝ) (fl d) = .fin ((10 : ℝ) ^ d) := by
  have e10 : (fl 10 : XF ℝ) = .fin 10 := by simp
  rw [e10, fl_fin]
  show powR (.fin 10) (.fin (d : ℝ)) = _
  unfold powR
  by_cases h0 : d = 0
  · subst h0; simp
  · have h1 : ¬ (XF.fin (d : ℝ) = .fin 0 ∨ XF.fin (10 : ℝ) = .fin 1) := by
      rw [fin_inj, fin_inj]
      rintro (h | h)
      · exact h0 (by exact_mod_cast h)
      · norm_num at h
    rw [if_neg h1]
    simp only
    rw [if_neg (by norm_num), if_neg (by norm_num), Real.rpow_intCast]

/-- Rounding half away from zero. -/
noncomputable def roundAway (a : ℝ) : ℤ := if a < 0 then -⌊-a + 1 / 2⌋ else ⌊a + 1 / 2⌋

theorem roundR_fin (a : ℝ) : GoMath.round (XF.fin a) = .fin (roundAway a : ℝ) := by
  show roundR _ = _
  unfold roundR roundAway
  simp only
  split
  · push_cast; rfl
  · rfl

theorem roundAway_near (a : ℝ) : |a - roundAway a| ≤ 1 / 2 ∧ (|a - roundAway a| = 1 / 2 → |a| < |(roundAway a : ℝ)|) := by
  unfold roundAway
  by_cases h : a < 0
  · rw [if_pos h]
    push_cast
    have h1 := Int.floor_le (-a + 1 / 2)
    have h2 := Int.lt_floor_add_one (-a + 1 / 2)
    refine ⟨abs_le.mpr ⟨by linarith, by linarith⟩, fun he => ?_⟩
    have h3 : a + ⌊-a + 1 / 2⌋ = 1 / 2 := by
      rcases (abs_eq (by norm_num)).mp he with e | e <;> linarith
    rw [abs_of_neg h, abs_neg, abs_of_pos (by linarith)]
    linarith
  · rw [if_neg h]
    have h1 := Int.floor_le (a + 1 / 2)
    have h2 := Int.lt_floor_add_one (a + 1 / 2)
    refine ⟨abs_le.mpr ⟨by linarith, by linarith⟩, fun he => ?_⟩
    have h3 : a - ⌊a + 1 / 2⌋ = -(1 / 2) := by
      rcases (abs_eq (by norm_num)).mp he with e | e <;> linarith
    rw [abs_of_nonneg (not_lt.mp h), abs_of_pos (by linarith)]
    linarith

theorem roundAway_mono {a b : ℝ} (h : a ≤ b) : roundAway a ≤ roundAway b := by
  unfold roundAway
  split
  · split
    · exact neg_le_neg (Int.floor_mono (by linarith))
    · next h1 h2 =>
      have : 0 ≤ ⌊-a + 1 / 2⌋ := Int.floor_nonneg.mpr (by linarith)
      have : 0 ≤ ⌊b + 1 / 2⌋ := Int.floor_nonneg.mpr (by linarith [not_lt.mp h2])
      omega
  · next h1 =>
    rw [if_neg (by linarith [not_lt.mp h1])]
    exact Int.floor_mono (by linarith)

theorem roundAway_int (z : ℤ) : roundAway (z : ℝ) = z := by
  have h := (roundAway_near (z : ℝ)).1
  have h' : |((z - roundAway z : ℤ) : ℝ)| ≤ 1 / 2 := by push_cast; exact h
  have h2 : |z - roundAway z| < 1 := by
    have h3 : ((|z - roundAway z| : ℤ) : ℝ) ≤ 1 / 2 := by rw [Int.cast_abs]; exact h'
    have h4 : ((|z - roundAway z| : ℤ) : ℝ) < 1 := by linarith
    exact_mod_cast h4
  have := Int.abs_lt_one_iff.mp h2
  omega

theorem roundAway_neg (a : ℝ) : roundAway (-a) = -roundAway a := by
  unfold roundAway
  rcases lt_trichotomy a 0 with h | rfl | h
  · rw [if_pos h, if_neg (by linarith), neg_neg]
  · norm_num
  · rw [if_pos (show -a < 0 by linarith), if_neg (show ¬ a < 0 by linarith), neg_neg]

theorem roundDigits_fin (v : ℝ) (d : Int) :
    RoundDigits (XF.fin v) d = .fin ((roundAway (v * 10 ^ d) : ℝ) / 10 ^ d) := by
  have h0 : (10 : ℝ) ^ d ≠ 0 := zpow_ne_zero _ (by norm_num)
  rw [RoundDigits, pow10_fin, mul_fin, roundR_fin, div_fin h0]

/-- **C93.** `RoundDigits(v, d)` (any `d`, also negative) is a whole multiple of `10^-d`, nearest to `v`, in a tie the one
farther from 0; it is odd, monotone and idempotent. `RoundDigitsAll` does this element by element. -/
theorem C93_round (d : Int) :
    ∃ R : ℝ → ℝ, (∀ v, RoundDigits (XF.fin v) d = .fin (R v)) ∧
      (∀ v, ∃ k : ℤ, R v = k / 10 ^ d) ∧
      (∀ v, |v - R v| ≤ 1 / 2 / 10 ^ d ∧ (|v - R v| = 1 / 2 / 10 ^ d → |v| < |R v|)) ∧
      (∀ v, R (-v) = -R v) ∧ (∀ v w, v ≤ w → R v ≤ R w) ∧ (∀ v, R (R v) = R v) ∧
      ∀ xs : List ℝ, RoundDigitsAll (fins xs) d = .ok (fins (xs.map R)) := by
  have hp : (0 : ℝ) < 10 ^ d := zpow_pos (by norm_num) _
  refine ⟨fun v => (roundAway (v * 10 ^ d) : ℝ) / 10 ^ d, fun v => roundDigits_fin v d, fun v => ⟨_, rfl⟩, fun v => ?_,
    fun v => ?_, fun v w h => ?_, fun v => ?_, fun xs => ?_⟩
  · obtain ⟨h1, h2⟩ := roundAway_near (v * 10 ^ d)
    have e : v - (roundAway (v * 10 ^ d) : ℝ) / 10 ^ d = (v * 10 ^ d - roundAway (v * 10 ^ d)) / 10 ^ d := by
      field_simp
    rw [e, abs_div, abs_of_pos hp]
    refine ⟨div_le_div_of_nonneg_right h1 hp.le, fun h => ?_⟩
    have h3 := h2 ((div_left_inj' hp.ne').mp h)
    rw [abs_mul, abs_of_pos hp] at h3
    rw [abs_div, abs_of_pos hp, lt_div_iff₀ hp]
    exact h3
  · simp only
    rw [neg_mul, roundAway_neg]
    push_cast
    ring
  · exact div_le_div_of_nonneg_right (by exact_mod_cast roundAway_mono (mul_le_mul_of_nonneg_right h hp.le)) hp.le
  · simp only
    rw [div_mul_cancel₀ _ hp.ne', roundAway_int]
  · obtain ⟨a, ha⟩ := exists_tabK xs
    rw [ha, fins_tab, map_tab, fins_tab, RoundDigitsAll_tab]
    exact congrArg _ (tab_ext fun i _ => roundDigits_fin _ _)

/-- A tie: -1.25 to one digit is -1.3. -/
example : RoundDigits (XF.fin (-5 / 4 : ℝ)) 1 = .fin (-13 / 10) := by
  rw [roundDigits_fin, roundAway, if_pos (by norm_num)]
  have : ⌊-(-5 / 4 * (10 : ℝ) ^ (1 : ℤ)) + 1 / 2⌋ = 13 := by rw [Int.floor_eq_iff]; norm_num
  rw [this]
  norm_num

/-! ## C94 -/

/-- **C94.** For `p >= 2` and candle series of one length `n`: `Natr` panics exactly when `n <= p`. Otherwise entries before
index `p` are 0; from there on the entry is `100 * w / close`, or 0 where the close is 0, with `w` starting at the mean
of the true ranges at `1 .. p` and following Wilder's recursion, whatever the closes. -/
theorem C94_natr {F : Type} [GoFloat F] (p : Nat) (hp : 2 ≤ p) (n : Nat) (h l c : Nat → K) :
    (n ≤ p → ∀ x y z : Nat → F, Natr (tab n x) (tab n y) (tab n z) p = .error .index) ∧
    (p < n → ∃ tr w natr : Nat → K,
      TRange (fins (tab n h)) (fins (tab n l)) (fins (tab n c)) = .ok (fins (tab n tr)) ∧
      Natr (fins (tab n h)) (fins (tab n l)) (fins (tab n c)) p = .ok (fins (tab n natr)) ∧
      (∀ i < p, natr i = 0) ∧
      w p = (∑ j ∈ Finset.range p, tr (j + 1)) / p ∧
      (∀ i, p ≤ i → w (i + 1) = (((p : K) - 1) * w i + tr (i + 1)) / p) ∧
      ∀ i, p ≤ i → natr i = if c i = 0 then 0 else 100 * w i / c i) := by
  constructor
  · intro hn x y z
    rw [Natr_tab p n hp, if_neg (by omega)]
  · intro hn
    have hp0 : 0 < p := by omega
    set s := (psum (trK h l c) (p + 1) - psum (trK h l c) (p + 1 - p)) / ((Nat.min p (p + 1) : Nat) : K) with hs
    set w : Nat → K := fun i => wilderK p s (trK h l c) (i - p) with hw
    refine ⟨trK h l c, w, fun i => if i < p then 0 else if c i = 0 then 0 else 100 * w i / c i, ?_, ?_, ?_, ?_, ?_, ?_⟩
    · rw [fins_tab, fins_tab, fins_tab, fins_tab, TRange_tab, trF_fin]
    · rw [fins_tab, fins_tab, fins_tab, fins_tab, Natr_tab p n hp, if_pos hn]
      refine congrArg _ (tab_ext fun i _ => ?_)
      rw [natrF, trF_fin, smaF_fin hp0, wilder_fin hp0]
      have e0 : (fl 0 : XF K) = .fin 0 := by simp
      have e100 : (fl 100 : XF K) = .fin 100 := by simp
      rw [e0, e100, eq_fin]
      by_cases h3 : i < p
      · rw [if_pos h3, if_pos h3]
      · rw [if_neg h3, if_neg h3]
        by_cases h4 : c i = 0
        · rw [if_pos (by simpa using h4), if_pos h4]
        · rw [if_neg (by simpa using h4), if_neg h4, div_fin h4, mul_fin]
          congr 1
          show wilderK p s _ _ / c i * 100 = 100 * wilderK p s _ _ / c i
          ring
    · intro i hi; simp [hi]
    · simp only [hw, Nat.sub_self, wilderK, hs]
      have e1 : Nat.min p (p + 1) = p := Nat.min_eq_left (by omega)
      rw [e1, show p + 1 - p = 1 by omega, psum, psum, Finset.sum_range_succ', Finset.sum_range_one, add_sub_cancel_right]
    · intro i hi
      have h3 : i + 1 - p = (i - p) + 1 := by omega
      have h4 : p + (i - p + 1) = i + 1 := by omega
      simp only [hw, h3, wilderK, h4]
      ring
    · intro i hi
      simp only [show ¬ i < p by omega, if_false]

/-- The normalised range of two candles of range 2 around 10, period 2; and `Atr` starts differently. -/
example : Natr (fins [11, 11, 11] : List (XF ℚ)) (fins [9, 9, 9]) (fins [10, 10, 10]) 2 = .ok (fins [0, 0, 20]) ∧
    Atr (fins [11, 11, 11] : List (XF ℚ)) (fins [9, 9, 9]) (fins [10, 10, 10]) 2 = .ok (fins [0, 0, 3 / 2]) := by
  decide +kernel

end Verif.Props
