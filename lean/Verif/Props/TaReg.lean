import Verif.Props.TaAvg

/-!
# C23, C24: linear regression
-/

set_option linter.unusedSectionVars false

namespace Verif.Props
open Verif Verif.Ta GoFloat XF

variable {K : Type} [Field K] [LinearOrder K] [IsStrictOrderedRing K]

/-- A line satisfying the normal equations over points with two distinct abscissae is the best
line. -/
theorem bestLine_of_normal {n : Nat} (x y : Nat → K) (m b : K)
    (h1 : ∑ j ∈ Finset.range n, (y j - (m * x j + b)) = 0)
    (h2 : ∑ j ∈ Finset.range n, (y j - (m * x j + b)) * x j = 0)
    {i j : Nat} (hi : i < n) (hj : j < n) (hij : x i ≠ x j) :
    IsBestLine (tab n fun j => (x j, y j)) m b := by
  intro m' b'
  rw [ptsErr_tab, ptsErr_tab]
  have key := sqErr_min x y m b h1 h2 m' b'
  unfold sqErr at key
  rw [key]
  have hnn : 0 ≤ ∑ j ∈ Finset.range n, ((m' - m) * x j + (b' - b)) ^ 2 :=
    Finset.sum_nonneg fun j _ => sq_nonneg _
  refine ⟨by linarith, fun he => ?_⟩
  have h0 : ∑ j ∈ Finset.range n, ((m' - m) * x j + (b' - b)) ^ 2 = 0 := by linarith
  have hz := (Finset.sum_eq_zero_iff_of_nonneg (fun j _ => sq_nonneg _)).mp h0
  have hzi := pow_eq_zero_iff (two_ne_zero) |>.mp (hz i (by simpa using hi))
  have hzj := pow_eq_zero_iff (two_ne_zero) |>.mp (hz j (by simpa using hj))
  have hm : (m' - m) * (x i - x j) = 0 := by linear_combination hzi - hzj
  have hm' : m' - m = 0 := by
    rcases mul_eq_zero.mp hm with h | h
    · exact h
    · exact absurd (sub_eq_zero.mp h) hij
  refine ⟨sub_eq_zero.mp hm', ?_⟩
  rw [hm', zero_mul, zero_add] at hzi
  exact sub_eq_zero.mp hzi

/-- **C23.** In exact arithmetic, for `2 <= p <= len(xs)`, `LinearRegSlope`, `LinearRegIntercept` and
`LinearReg` return zeros before index `p-1`; from there on slope and intercept are those of the
unique least-squares line of the window (abscissae `0 .. p-1`), and `LinearReg` is the value of that
line at the last point. With fewer than `p` values the calls panic. -/
theorem C23_linear_regression (p : Nat) (hp : 2 ≤ p) (xs : List K) :
    (xs.length < p → LinearRegSlope (fins xs) p = .error .index ∧
      LinearRegIntercept (fins xs) p = .error .index ∧ LinearReg (fins xs) p = .error .index) ∧
    (p ≤ xs.length → ∃ ms bs es : Nat → K,
      LinearRegSlope (fins xs) p = .ok (fins (tab xs.length ms)) ∧
      LinearRegIntercept (fins xs) p = .ok (fins (tab xs.length bs)) ∧
      LinearReg (fins xs) p = .ok (fins (tab xs.length es)) ∧
      (∀ i, i + 1 < p → ms i = 0 ∧ bs i = 0 ∧ es i = 0) ∧
      ∀ i, p ≤ i + 1 → i < xs.length →
        IsBestLine (asPoints (window p i xs)) (ms i) (bs i) ∧
        es i = ms i * ((p : K) - 1) + bs i) := by
  refine onTab (P := fun xs =>
    (xs.length < p → LinearRegSlope (fins xs) p = .error .index ∧
      LinearRegIntercept (fins xs) p = .error .index ∧ LinearReg (fins xs) p = .error .index) ∧
    (p ≤ xs.length → ∃ ms bs es : Nat → K,
      LinearRegSlope (fins xs) p = .ok (fins (tab xs.length ms)) ∧
      LinearRegIntercept (fins xs) p = .ok (fins (tab xs.length bs)) ∧
      LinearReg (fins xs) p = .ok (fins (tab xs.length es)) ∧
      (∀ i, i + 1 < p → ms i = 0 ∧ bs i = 0 ∧ es i = 0) ∧
      ∀ i, p ≤ i + 1 → i < xs.length →
        IsBestLine (asPoints (window p i xs)) (ms i) (bs i) ∧
        es i = ms i * ((p : K) - 1) + bs i)) (fun n a => ?_) xs
  rw [fins_tab, tab_length]
  unfold LinearRegSlope LinearRegIntercept LinearReg
  simp only [linRegCore_tab _ p n (by omega : 0 < p)]
  constructor
  · intro h
    simp [show ¬ p ≤ n by omega]
  · intro h
    simp only [h, if_true]
    refine ⟨fun i => if i + 1 < p then 0 else lsSlope p (i + 1 - p) a,
      fun i => if i + 1 < p then 0 else lsIcpt p (i + 1 - p) a,
      fun i => if i + 1 < p then 0 else lsIcpt p (i + 1 - p) a + lsSlope p (i + 1 - p) a * ((p : K) - 1),
      ?_, ?_, ?_, ?_, ?_⟩
    · rw [fins_tab]
      refine congrArg _ (tab_ext fun i _ => ?_)
      by_cases h2 : i + 1 < p
      · simp [lrF, h2]
      · simp only [h2, if_false]; exact (lrSlope_fin hp a i h2).1
    · rw [fins_tab]
      refine congrArg _ (tab_ext fun i _ => ?_)
      by_cases h2 : i + 1 < p
      · simp [lrF, h2]
      · simp only [h2, if_false]; exact (lrSlope_fin hp a i h2).2.1
    · rw [fins_tab]
      refine congrArg _ (tab_ext fun i _ => ?_)
      by_cases h2 : i + 1 < p
      · simp [lrF, h2]
      · simp only [h2, if_false]; exact (lrSlope_fin hp a i h2).2.2
    · intro i hi; simp [hi]
    · intro i hpi hi
      have h2 : ¬ i + 1 < p := by omega
      simp only [h2, if_false]
      refine ⟨?_, by ring⟩
      rw [window_tab a hi, show i + 1 - (i + 1 - p) = p by omega, asPoints_tab]
      obtain ⟨e1, e2⟩ := lsLine_normal (K := K) hp (i + 1 - p) a
      exact bestLine_of_normal (fun j => (j : K)) (fun j => a (i + 1 - p + j)) _ _ e1 e2
        (i := 0) (j := 1) (by omega) (by omega) (by simp)

example : LinearRegSlope (fins [1, 3, 2, 6] : List (XF ℚ)) 3 = .ok (fins [0, 0, 1 / 2, 3 / 2]) := by
  decide +kernel
example : LinearReg (fins [1, 3, 2, 6] : List (XF ℚ)) 3 = .ok (fins [0, 0, 5 / 2, 31 / 6]) := by
  decide +kernel
example : LinearReg (fins [1, 3] : List (XF ℚ)) 3 = .error .index := by decide +kernel

/-! ## C24 -/

/-- Least squares over exact numbers, from sums. -/
theorem ls_fin {n : Nat} (x y : Nat → K) {i j : Nat} (hi : i < n) (hj : j < n) (hij : x i ≠ x j) :
    ∃ m b : K,
      lsM (XF.fin (n : K)) (.fin (∑ j ∈ Finset.range n, x j)) (.fin (∑ j ∈ Finset.range n, x j * x j))
        (.fin (∑ j ∈ Finset.range n, y j)) (.fin (∑ j ∈ Finset.range n, x j * y j)) = .fin m ∧
      (XF.fin (∑ j ∈ Finset.range n, y j) -. (XF.fin m *. XF.fin (∑ j ∈ Finset.range n, x j)))
        /. XF.fin (n : K) = .fin b ∧
      IsBestLine (tab n fun j => (x j, y j)) m b := by
  have hn : (n : K) ≠ 0 := natCast_ne (by omega)
  have hD := (det_pos x hi hj hij).ne'
  obtain ⟨m, hm⟩ : ∃ m : K, m = ((n : K) * (∑ j ∈ Finset.range n, x j * y j)
        - (∑ j ∈ Finset.range n, x j) * (∑ j ∈ Finset.range n, y j))
      / ((n : K) * (∑ j ∈ Finset.range n, x j * x j)
        - (∑ j ∈ Finset.range n, x j) * (∑ j ∈ Finset.range n, x j)) := ⟨_, rfl⟩
  obtain ⟨b, hb⟩ : ∃ b : K, b = ((∑ j ∈ Finset.range n, y j) - m * ∑ j ∈ Finset.range n, x j) / n :=
    ⟨_, rfl⟩
  refine ⟨m, b, ?_, ?_, ?_⟩
  · simp only [lsM, mul_fin, sub_fin]
    rw [div_fin hD, hm]
  · simp only [mul_fin, sub_fin]
    rw [div_fin hn, hb]
  · obtain ⟨e1, e2⟩ := normal_eqs (by omega) x y hD m b hm hb
    exact bestLine_of_normal x y _ _ e1 e2 hi hj hij

/-- Two points of a list with different abscissae. -/
def TwoAbscissae {K : Type} (pts : List (K × K)) : Prop := ∃ q ∈ pts, ∃ r ∈ pts, q.1 ≠ r.1

theorem two_abscissae_tab {n : Nat} {x y : Nat → K}
    (h : TwoAbscissae (tab n fun j => (x j, y j))) : ∃ i j, i < n ∧ j < n ∧ x i ≠ x j := by
  obtain ⟨q, hq, r, hr, hqr⟩ := h
  obtain ⟨i, hi⟩ := List.mem_iff_getElem?.mp hq
  obtain ⟨j, hj⟩ := List.mem_iff_getElem?.mp hr
  rw [tab_getElem?] at hi hj
  split at hi <;> simp at hi
  split at hj <;> simp at hj
  subst hi hj
  exact ⟨i, j, by assumption, by assumption, hqr⟩

/-- Applies a closed form to two slices of the same length. -/
theorem onTab₂ {P : List K → List K → Prop} (h : ∀ (n : Nat) (a b : Nat → K), P (tab n a) (tab n b))
    (xs ys : List K) (hl : xs.length = ys.length) : P xs ys := by
  obtain ⟨a, ha⟩ := exists_tabK xs
  obtain ⟨b, hb⟩ := exists_tabK ys
  generalize xs.length = n at ha hl
  rw [← hl] at hb
  subst ha hb
  exact h _ _ _

/-- **C24 (LeastSquare).** In exact arithmetic, for points with at least two distinct abscissae,
`LeastSquare` returns the unique line of least squared error and
`LinearRegressionUsingLeastSquare` its values at the abscissae. -/
theorem C24_least_square (xs ys : List K) (hl : xs.length = ys.length)
    (h2 : TwoAbscissae (xs.zip ys)) :
    ∃ m b, LeastSquare (fins xs) (fins ys) = .ok (.fin m, .fin b) ∧
      IsBestLine (xs.zip ys) m b ∧
      LinearRegressionUsingLeastSquare (fins xs) (fins ys)
        = .ok (fins (xs.map fun x => m * x + b)) := by
  revert h2
  refine onTab₂ (P := fun xs ys => TwoAbscissae (xs.zip ys) →
    ∃ m b, LeastSquare (fins xs) (fins ys) = .ok (.fin m, .fin b) ∧
      IsBestLine (xs.zip ys) m b ∧
      LinearRegressionUsingLeastSquare (fins xs) (fins ys)
        = .ok (fins (xs.map fun x => m * x + b))) (fun n a b h2 => ?_) xs ys hl
  have hz : (tab n a).zip (tab n b) = tab n fun j => (a j, b j) := by
    rw [List.zip, zipWith_tab, Nat.min_self]
  rw [hz] at h2 ⊢
  obtain ⟨i, j, hi, hj, hij⟩ := two_abscissae_tab h2
  obtain ⟨m, c, e1, e2, e3⟩ := ls_fin a b hi hj hij
  have q1 : (fun j => (XF.fin (a j) *. XF.fin (a j) : XF K)) = finF fun j => a j * a j := rfl
  have q2 : (fun j => (XF.fin (a j) *. XF.fin (b j) : XF K)) = finF fun j => a j * b j := rfl
  have hm : lsMF n (fun i => XF.fin (a i)) (fun i => XF.fin (b i)) = .fin m := by
    rw [lsMF, q1, q2, accum_fin, accum_fin, accum_fin, accum_fin, fl_nat]
    simpa using e1
  have hb : lsBF n (fun i => XF.fin (a i)) (fun i => XF.fin (b i)) = .fin c := by
    rw [lsBF, hm, accum_fin, accum_fin, fl_nat]
    simpa using e2
  refine ⟨m, c, ?_, e3, ?_⟩
  · rw [fins_tab, fins_tab, LeastSquare_tab, hm, hb]
  · rw [fins_tab, fins_tab, LinearRegression_tab, hm, hb, map_tab, fins_tab]
    rfl

/-- **C24 (MovingLeastSquare).** In exact arithmetic, for `p >= 1`, at every index whose window of
points has two distinct abscissae the result is the unique line of least squared error of the last
`min p (i+1)` points, and the moving regression is its value at the last point. -/
theorem C24_moving_least_square (p : Nat) (hp : 1 ≤ p) (xs ys : List K)
    (hl : xs.length = ys.length) :
    ∃ ms bs rs, MovingLeastSquare p (fins xs) (fins ys) = .ok (ms, bs) ∧
      MovingLinearRegressionUsingLeastSquare p (fins xs) (fins ys) = .ok rs ∧
      ms.length = xs.length ∧ bs.length = xs.length ∧ rs.length = xs.length ∧
      ∀ i x, xs[i]? = some x → TwoAbscissae (window p i (xs.zip ys)) →
        ∃ m b, ms[i]? = some (.fin m) ∧ bs[i]? = some (.fin b) ∧
          rs[i]? = some (.fin (m * x + b)) ∧ IsBestLine (window p i (xs.zip ys)) m b := by
  refine onTab₂ (P := fun xs ys => ∃ ms bs rs, MovingLeastSquare p (fins xs) (fins ys) = .ok (ms, bs) ∧
      MovingLinearRegressionUsingLeastSquare p (fins xs) (fins ys) = .ok rs ∧
      ms.length = xs.length ∧ bs.length = xs.length ∧ rs.length = xs.length ∧
      ∀ i x, xs[i]? = some x → TwoAbscissae (window p i (xs.zip ys)) →
        ∃ m b, ms[i]? = some (.fin m) ∧ bs[i]? = some (.fin b) ∧
          rs[i]? = some (.fin (m * x + b)) ∧ IsBestLine (window p i (xs.zip ys)) m b)
    (fun n a b => ?_) xs ys hl
  have hz : (tab n a).zip (tab n b) = tab n fun j => (a j, b j) := by
    rw [List.zip, zipWith_tab, Nat.min_self]
  rw [fins_tab, fins_tab]
  refine ⟨_, _, _, MovingLeastSquare_tab _ _ _ _, MovingLinearRegression_tab _ _ _ _, by simp, by simp,
    by simp, ?_⟩
  intro i x hx h2
  rw [tab_getElem?] at hx
  split at hx <;> simp at hx
  next hi =>
  subst hx
  rw [hz, window_tab _ hi] at h2 ⊢
  have hw : i + 1 - (i + 1 - p) = min p (i + 1) := by omega
  have hpos : i + 1 - p + min p (i + 1) = i + 1 := by omega
  rw [hw] at h2 ⊢
  obtain ⟨u, v, hu, hv, huv⟩ := two_abscissae_tab (x := fun j => a (i + 1 - p + j))
    (y := fun j => b (i + 1 - p + j)) h2
  obtain ⟨m, c, e1, e2, e3⟩ := ls_fin (fun j => a (i + 1 - p + j)) (fun j => b (i + 1 - p + j)) hu hv huv
  have hs : ∀ f : Nat → K, runSum p (finF f) (i + 1)
      = .fin (∑ j ∈ Finset.range (min p (i + 1)), f (i + 1 - p + j)) := fun f => by
    rw [runSum_fin]
    have := psum_add f (i + 1 - p) (min p (i + 1))
    rw [hpos] at this
    rw [this]; congr 1; ring
  have hN : (fl (mlsN p i) : XF K) = .fin ((min p (i + 1) : Nat) : K) := by
    have : mlsN p i = ((min p (i + 1) : Nat) : Int) := by unfold mlsN; split <;> omega
    rw [this, fl_nat]
  have q1 : (fun j => (XF.fin (a j) *. XF.fin (a j) : XF K)) = finF fun j => a j * a j := rfl
  have q2 : (fun j => (XF.fin (a j) *. XF.fin (b j) : XF K)) = finF fun j => a j * b j := rfl
  have hm : mlsM p (fun i => XF.fin (a i)) (fun i => XF.fin (b i)) i = .fin m := by
    rw [mlsM, q1, q2, hs a, hs b, hs, hs, hN]
    exact e1
  have hb : mlsB p (fun i => XF.fin (a i)) (fun i => XF.fin (b i)) i = .fin c := by
    rw [mlsB, hm, hs a, hs b, hN]
    exact e2
  refine ⟨m, c, ?_, ?_, ?_, e3⟩
  · rw [tab_getElem?_lt hi, hm]
  · rw [tab_getElem?_lt hi, hb]
  · rw [tab_getElem?_lt hi, hm, hb]
    rfl

example : TwoAbscissae ([0, 1, 3].zip [1, 3, 4] : List (ℚ × ℚ)) :=
  ⟨(0, 1), by decide +kernel, (1, 3), by decide +kernel, by decide +kernel⟩
example : LeastSquare (fins [0, 1, 3] : List (XF ℚ)) (fins [1, 3, 4])
    = .ok (.fin (13 / 14), .fin (10 / 7)) := by decide +kernel

end Verif.Props
