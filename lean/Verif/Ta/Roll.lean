import Verif.Ta.Avg

/-!
# Rolling statistics of `utils/ta/ta.go`: Wma, Variance, StdDev, regression, true range
-/

namespace Verif.Ta
open GoFloat

variable {F : Type} [GoFloat F]

/-! ## Wma -/

/-- Models utils/ta/ta.go:342-380 `Wma`. `inIdx` is the loop counter; `copy(result, values)` copies
all values because both slices have the same length. -/
def Wma (period : Int) (values : List F) : Go (List F) := do
  let result ← mk values.length (fl 0)
  let lookbackTotal := period - 1
  let startIdx := lookbackTotal
  if period = 1 then pure values
  else
    let divider := (period * (period + 1)) >>> 1
    let outIdx := period - 1
    let trailingIdx := startIdx - lookbackTotal
    let (periodSum, periodSub, _) ←
      goFor trailingIdx startIdx ((fl 0 : F), (fl 0 : F), (1 : Int)) fun inIdx (sum, sub, i) => do
        let tempReal ← idx values inIdx
        pure (sum +. tempReal *. fl i, sub +. tempReal, i + 1)
    let (_, result) ←
      goFor (if trailingIdx < startIdx then startIdx else trailingIdx) values.length
        ((periodSum, periodSub, (fl 0 : F), trailingIdx, outIdx), result)
        fun inIdx ((sum, sub, trailingValue, trailingIdx, outIdx), r) => do
          let tempReal ← idx values inIdx
          let sub := sub +. tempReal
          let sub := sub -. trailingValue
          let sum := sum +. tempReal *. fl period
          let trailingValue ← idx values trailingIdx
          let r ← setAt r outIdx (sum /. fl divider)
          let sum := sum -. sub
          pure ((sum, sub, trailingValue, trailingIdx + 1, outIdx + 1), r)
    pure result

/-- Weighted start-up sum of `Wma`. -/
def wsum0 (x : Nat → F) : Nat → F
  | 0 => fl 0
  | k + 1 => wsum0 x k +. x k *. fl ((k : Int) + 1)

/-- `(periodSum, periodSub, trailingValue)` before the `m`-th output. -/
def wmaS (p : Nat) (x : Nat → F) : Nat → F × F × F
  | 0 => (wsum0 x (p - 1), accum x 0 (p - 1), fl 0)
  | m + 1 =>
    let s := wmaS p x m
    let sub := s.2.1 +. x (p - 1 + m) -. s.2.2
    (s.1 +. x (p - 1 + m) *. fl p -. sub, sub, x m)

/-- The value of `Wma` at one position. -/
def wmaF (p : Nat) (x : Nat → F) (i : Nat) : F :=
  if p = 1 then x i else if i + 1 < p then fl 0
  else ((wmaS p x (i + 1 - p)).1 +. x i *. fl p) /. fl (((p : Int) * (p + 1)) >>> 1)

theorem Wma_tab (p n : Nat) (hp : 0 < p) (x : Nat → F) :
    Wma p (tab n x) = if p ≤ n + 1 then .ok (tab n (wmaF p x)) else .error .index := by
  unfold Wma
  simp only [tab_length, mk_nat, ok_bind]
  by_cases h1 : p = 1
  · subst h1
    rw [if_pos (by rfl), if_pos (by omega), pure_eq_ok]
    congr 1
  · rw [if_neg (by omega)]
    have e0 : (p : Int) - 1 - ((p : Int) - 1) = ((0 : Nat) : Int) := by omega
    have e1 : (p : Int) - 1 = ((p - 1 : Nat) : Int) := by omega
    rw [e0, e1]
    by_cases h2 : p ≤ n + 1
    · rw [if_pos h2]
      rw [goFor_acc (lo := 0) (hi := p - 1) (by omega)
        (fun k => (wsum0 x k, accum x 0 k, (k : Int) + 1)) (by simp [wsum0, accum])]
      · simp only [ok_bind]
        rw [if_pos (by omega)]
        rw [goFor_fill_from (lo := p - 1) (z := fl 0) (wmaF p x)
          (fun k => ((wmaS p x (k - (p - 1))).1, (wmaS p x (k - (p - 1))).2.1,
            (wmaS p x (k - (p - 1))).2.2, ((k - (p - 1) : Nat) : Int), (k : Int)))]
        · rfl
        · simp [wmaS]
        · intro j hj; rw [wmaF, if_neg h1, if_pos (by omega)]
        · intro k hk hk'
          simp only [idx_tab hk', idx_tab (show k - (p - 1) < n by omega), ok_bind]
          have e2 : k + 1 - (p - 1) = (k - (p - 1)) + 1 := by omega
          have e3 : p - 1 + (k - (p - 1)) = k := by omega
          have e4 : k + 1 - p = k - (p - 1) := by omega
          rw [setAt_filled (f := wmaF p x) hk' (by
            rw [wmaF, if_neg h1, if_neg (by omega), e4])]
          simp only [ok_bind, pure_eq_ok]
          rw [e2, wmaS, e3]
          simp
      · intro k _ hk
        simp only [idx_tab (show k < n by omega), ok_bind, pure_eq_ok]
        simp [wsum0, accum]
    · rw [if_neg h2]
      rw [goFor_error_at (lo := 0) (m := n) (e := .index) (by omega) (by omega)]
      · rfl
      · rintro k ⟨a, b, c⟩ _ hk
        simp only [idx_tab hk, ok_bind]
        exact ⟨_, rfl⟩
      · rintro ⟨a, b, c⟩
        simp only [idx_tab_ge (Int.le_refl _), error_bind]

/-! ## Variance -/

/-- Models utils/ta/ta.go:1001-1038 `Variance`. The second loop is a do-while: its body runs for the
start index and then while `i < len(inReal)`. -/
def Variance (inReal : List F) (inTimePeriod : Int) : Go (List F) := do
  let outReal ← mk inReal.length (fl 0)
  let nbInitialElementNeeded := inTimePeriod - 1
  let startIdx := nbInitialElementNeeded
  let trailingIdx := startIdx - nbInitialElementNeeded
  let i := trailingIdx
  let (t1, t2) ←
    (if inTimePeriod > 1 then
      goFor i startIdx ((fl 0 : F), (fl 0 : F)) fun i (t1, t2) => do
        let tempReal ← idx inReal i
        let t1 := t1 +. tempReal
        let tempReal := tempReal *. tempReal
        pure (t1, t2 +. tempReal)
    else pure ((fl 0 : F), (fl 0 : F)))
  let i := if inTimePeriod > 1 then startIdx else i
  let outIdx := startIdx
  let (_, outReal) ←
    goFor i (max (i + 1) inReal.length) ((t1, t2, trailingIdx, outIdx), outReal)
      fun i ((t1, t2, trailingIdx, outIdx), r) => do
        let tempReal ← idx inReal i
        let t1 := t1 +. tempReal
        let tempReal := tempReal *. tempReal
        let t2 := t2 +. tempReal
        let meanValue1 := t1 /. fl inTimePeriod
        let meanValue2 := t2 /. fl inTimePeriod
        let tempReal ← idx inReal trailingIdx
        let t1 := t1 -. tempReal
        let tempReal := tempReal *. tempReal
        let t2 := t2 -. tempReal
        let r ← setAt r outIdx (meanValue2 -. meanValue1 *. meanValue1)
        pure ((t1, t2, trailingIdx + 1, outIdx + 1), r)
  pure outReal

/-- The running total of `Variance` before the `m`-th output. -/
def vTot (p : Nat) (x : Nat → F) : Nat → F
  | 0 => accum x 0 (p - 1)
  | m + 1 => vTot p x m +. x (p - 1 + m) -. x m

/-- The value of `Variance` at one position. -/
def varF (p : Nat) (x : Nat → F) (i : Nat) : F :=
  if i + 1 < p then fl 0
  else
    let m1 := (vTot p x (i + 1 - p) +. x i) /. fl p
    let m2 := (vTot p (fun j => x j *. x j) (i + 1 - p) +. x i *. x i) /. fl p
    m2 -. m1 *. m1

theorem Variance_tab (p n : Nat) (hp : 0 < p) (x : Nat → F) :
    Variance (tab n x) p = if p ≤ n then .ok (tab n (varF p x)) else .error .index := by
  unfold Variance
  simp only [tab_length, mk_nat, ok_bind]
  have e0 : (p : Int) - 1 - ((p : Int) - 1) = ((0 : Nat) : Int) := by omega
  have e1 : (p : Int) - 1 = ((p - 1 : Nat) : Int) := by omega
  rw [e0, e1]
  have ei : (if (p : Int) > 1 then ((p - 1 : Nat) : Int) else ((0 : Nat) : Int))
      = ((p - 1 : Nat) : Int) := by split <;> omega
  rw [ei]
  by_cases h2 : p ≤ n
  · rw [if_pos h2]
    have efirst : (if (p : Int) > 1 then
        goFor ((0 : Nat) : Int) ((p - 1 : Nat) : Int) ((fl 0 : F), (fl 0 : F)) fun i x_1 => do
          let tempReal ← idx (tab n x) i
          pure (x_1.1 +. tempReal, x_1.2 +. tempReal *. tempReal)
        else pure ((fl 0 : F), (fl 0 : F))) =
        .ok (accum x 0 (p - 1), accum (fun j => x j *. x j) 0 (p - 1)) := by
      split
      · rw [goFor_acc (by omega) (fun k => (accum x 0 k, accum (fun j => x j *. x j) 0 k))
          (by simp [accum])]
        intro k _ hk
        simp only [idx_tab (show k < n by omega), ok_bind, pure_eq_ok]
        simp [accum]
      · have : p - 1 = 0 := by omega
        rw [this]; rfl
    rw [efirst]
    simp only [ok_bind]
    have em : max (((p - 1 : Nat) : Int) + 1) (n : Int) = (n : Int) := by omega
    rw [em]
    rw [goFor_fill_from (lo := p - 1) (z := fl 0) (varF p x)
      (fun k => (vTot p x (k - (p - 1)), vTot p (fun j => x j *. x j) (k - (p - 1)),
            ((k - (p - 1) : Nat) : Int), (k : Int)))]
    · rfl
    · simp [vTot]
    · intro j hj; rw [varF, if_pos (by omega)]
    · intro k hk hk'
      simp only [idx_tab hk', idx_tab (show k - (p - 1) < n by omega), ok_bind]
      have e2 : k + 1 - (p - 1) = (k - (p - 1)) + 1 := by omega
      have e3 : p - 1 + (k - (p - 1)) = k := by omega
      have e4 : k + 1 - p = k - (p - 1) := by omega
      rw [setAt_filled (f := varF p x) hk' (by
        rw [varF, if_neg (by omega), e4])]
      simp only [ok_bind, pure_eq_ok]
      rw [e2, vTot, vTot, e3]
      simp
  · rw [if_neg h2]
    by_cases h3 : n < p - 1
    · rw [if_pos (by omega)]
      rw [goFor_error_at (lo := 0) (m := n) (e := .index) (by omega) (by omega)]
      · rfl
      · rintro k ⟨a, b⟩ _ hk
        simp only [idx_tab hk, ok_bind]
        exact ⟨_, rfl⟩
      · rintro ⟨a, b⟩
        simp only [idx_tab_ge (Int.le_refl _), error_bind]
    · have hn : n = p - 1 := by omega
      have : ∃ a b : F, (if (p : Int) > 1 then
        goFor ((0 : Nat) : Int) ((p - 1 : Nat) : Int) ((fl 0 : F), (fl 0 : F)) fun i x_1 => do
          let tempReal ← idx (tab n x) i
          pure (x_1.1 +. tempReal, x_1.2 +. tempReal *. tempReal)
        else pure ((fl 0 : F), (fl 0 : F))) = .ok (a, b) := by
        split
        · obtain ⟨s', e, _⟩ := goFor_inv' (lo := 0) (hi := p - 1) (by omega)
            (s := ((fl 0 : F), (fl 0 : F))) (body := fun i x_1 => do
              let tempReal ← idx (tab n x) i
              pure (x_1.1 +. tempReal, x_1.2 +. tempReal *. tempReal)) (fun _ _ => True) trivial (by
              intro k s _ hk _
              simp only [idx_tab (show k < n by omega), ok_bind]
              exact ⟨_, rfl, trivial⟩)
          exact ⟨s'.1, s'.2, e⟩
        · exact ⟨_, _, rfl⟩
      obtain ⟨a, b, e⟩ := this
      rw [e]
      simp only [ok_bind]
      rw [goFor_error_first (p := .index) (by omega)]
      · rfl
      · rw [idx_tab_ge (by omega)]; rfl

/-- Models utils/ta/ta.go:1070-1093 `StdDev`. -/
def StdDev {F : Type} [GoMath F] (inReal : List F) (inTimePeriod : Int) (inNbDev : F) :
    Go (List F) := do
  let outReal ← Variance inReal inTimePeriod
  if !(inNbDev ==. fl 1) then
    goFor 0 inReal.length outReal fun i r => do
      let tempReal ← idx r i
      if !(tempReal <. lit (1 / 100000000000000)) then setAt r i (GoMath.sqrt tempReal *. inNbDev)
      else setAt r i (fl 0)
  else
    goFor 0 inReal.length outReal fun i r => do
      let tempReal ← idx r i
      if !(tempReal <. lit (1 / 100000000000000)) then setAt r i (GoMath.sqrt tempReal)
      else setAt r i (fl 0)

/-- The value of `StdDev` at one position. -/
def stdF {F : Type} [GoMath F] (p : Nat) (dev : F) (x : Nat → F) (i : Nat) : F :=
  if varF p x i <. lit (1 / 100000000000000) then fl 0
  else if dev ==. fl 1 then GoMath.sqrt (varF p x i) else GoMath.sqrt (varF p x i) *. dev

/-- An in-place update loop. -/
theorem goFor_inplace {α : Type _} {n : Nat} (x f : Nat → α) {body : Int → List α → Go (List α)}
    (hb : ∀ k, k < n → body k (tab n fun j => if j < k then f j else x j)
      = .ok (tab n fun j => if j < k + 1 then f j else x j)) :
    goFor 0 n (tab n x) body = .ok (tab n f) := by
  rw [goFor_acc₀ (hi := n) (fun k => tab n fun j => if j < k then f j else x j) (by simp)]
  · congr 1; exact tab_ext fun i hi => by simp [hi]
  · intro k hk; exact hb k hk

theorem setAt_inplace {α : Type _} {n k : Nat} {x f : Nat → α} {v : α} (hk : k < n) (hv : v = f k) :
    setAt (tab n fun j => if j < k then f j else x j) (k : Int) v
      = .ok (tab n fun j => if j < k + 1 then f j else x j) := by
  rw [setAt_tab hk]
  congr 1
  apply tab_ext
  intro j _
  by_cases h1 : j = k
  · subst h1; simp [hv]
  · have : (j < k + 1) = (j < k) := by simp; omega
    simp [h1, this]

theorem StdDev_tab {F : Type} [GoMath F] (p n : Nat) (hp : 0 < p) (dev : F) (x : Nat → F) :
    StdDev (tab n x) p dev = if p ≤ n then .ok (tab n (stdF p dev x)) else .error .index := by
  unfold StdDev
  rw [Variance_tab p n hp]
  split
  · simp only [ok_bind, tab_length]
    by_cases hd : (dev ==. fl 1) = true
    · simp only [hd, Bool.not_true, Bool.false_eq_true, if_false]
      refine goFor_inplace _ _ fun k hk => ?_
      simp only [idx_tab hk, Nat.lt_irrefl, if_false, ok_bind]
      by_cases hv : (varF p x k <. lit (1 / 100000000000000)) = true
      · simp only [hv, Bool.not_true, Bool.false_eq_true, if_false]
        exact setAt_inplace hk (by simp only [stdF, hv, if_true])
      · simp only [hv, Bool.not_false, if_true]
        exact setAt_inplace hk (by simp only [stdF, hv, hd, if_true, if_false, Bool.false_eq_true])
    · simp only [hd, Bool.not_false, if_true]
      refine goFor_inplace _ _ fun k hk => ?_
      simp only [idx_tab hk, Nat.lt_irrefl, if_false, ok_bind]
      by_cases hv : (varF p x k <. lit (1 / 100000000000000)) = true
      · simp only [hv, Bool.not_true, Bool.false_eq_true, if_false]
        exact setAt_inplace hk (by simp only [stdF, hv, if_true])
      · simp only [hv, Bool.not_false, if_true]
        exact setAt_inplace hk (by simp only [stdF, hv, hd, if_false, Bool.false_eq_true])
  · rfl

/-! ## Linear regression -/

/-- The body shared by utils/ta/ta.go:12-48 `LinearReg`, 51-86 `LinearRegAngle`, 89-124
`LinearRegIntercept` and 127-161 `LinearRegSlope`, which differ only in the value stored per output
(`emit`, from `inTimePeriodF`, `sumX`, `divisor`, `sumXY`, `sumY`). The start-up loop
`for i != 0 { i--; .. inReal[today-i] .. }` is written over `j = today - i`; for a negative period it
counts down forever and so runs into the index panic. -/
def linRegCore (emit : F → F → F → F → F → F) (inReal : List F) (inTimePeriod : Int) :
    Go (List F) := do
  let outReal ← mk inReal.length (fl 0)
  let pF : F := fl inTimePeriod
  let startIdx := inTimePeriod
  let outIdx := startIdx - 1
  let today := startIdx - 1
  let sumX := pF *. (pF -. fl 1) *. lit (1 / 2)
  let sumXSqr := pF *. (pF -. fl 1) *. (fl 2 *. pF -. fl 1) /. fl 6
  let divisor := sumX *. sumX -. pF *. sumXSqr
  if inTimePeriod < 0 then .error .index
  else
    let (sumXY, sumY) ← goFor 0 inTimePeriod ((fl 0 : F), (fl 0 : F)) fun j (sumXY, sumY) => do
      let i := today - j
      let tempValue1 ← idx inReal (today - i)
      pure (sumXY +. fl i *. tempValue1, sumY +. tempValue1)
    let (_, outReal) ← goFor today inReal.length ((sumXY, sumY, outIdx), outReal)
      fun today ((sumXY, sumY, outIdx), r) => do
        let (sumXY, sumY) ←
          (if today > startIdx - 1 then do
            let tempValue2 ← idx inReal (today - inTimePeriod)
            let cur ← idx inReal today
            pure (sumXY +. (sumY -. pF *. tempValue2), sumY +. (cur -. tempValue2))
          else pure (sumXY, sumY))
        let r ← setAt r outIdx (emit pF sumX divisor sumXY sumY)
        pure ((sumXY, sumY, outIdx + 1), r)
    pure outReal

/-- Slope from the running sums (`m`). -/
def lrSlope (pF sumX divisor sumXY sumY : F) : F := (pF *. sumXY -. sumX *. sumY) /. divisor
/-- Intercept from the running sums (`b`). -/
def lrIntercept (pF sumX divisor sumXY sumY : F) : F :=
  (sumY -. lrSlope pF sumX divisor sumXY sumY *. sumX) /. pF
/-- End point from the running sums. -/
def lrEnd (pF sumX divisor sumXY sumY : F) : F :=
  lrIntercept pF sumX divisor sumXY sumY +. lrSlope pF sumX divisor sumXY sumY *. (pF -. fl 1)
/-- Angle in degrees from the running sums. -/
def lrAngle {F : Type} [GoMath F] (pF sumX divisor sumXY sumY : F) : F :=
  GoMath.atan (lrSlope pF sumX divisor sumXY sumY) *. GoMath.degPerRad

/-- Models utils/ta/ta.go:12-48 `LinearReg`. -/
def LinearReg (inReal : List F) (p : Int) : Go (List F) := linRegCore lrEnd inReal p
/-- Models utils/ta/ta.go:51-86 `LinearRegAngle`. -/
def LinearRegAngle {F : Type} [GoMath F] (inReal : List F) (p : Int) : Go (List F) :=
  linRegCore lrAngle inReal p
/-- Models utils/ta/ta.go:89-124 `LinearRegIntercept`. -/
def LinearRegIntercept (inReal : List F) (p : Int) : Go (List F) := linRegCore lrIntercept inReal p
/-- Models utils/ta/ta.go:127-161 `LinearRegSlope`. -/
def LinearRegSlope (inReal : List F) (p : Int) : Go (List F) := linRegCore lrSlope inReal p

/-- Start-up value of `sumXY`. -/
def lrXY0 (p : Nat) (x : Nat → F) : Nat → F
  | 0 => fl 0
  | k + 1 => lrXY0 p x k +. fl ((p : Int) - 1 - k) *. x k

/-- `(sumXY, sumY)` used for the `m`-th output. -/
def lrS (p : Nat) (x : Nat → F) : Nat → F × F
  | 0 => (lrXY0 p x p, accum x 0 p)
  | m + 1 =>
    let s := lrS p x m
    (s.1 +. (s.2 -. fl p *. x m), s.2 +. (x (p + m) -. x m))

/-- The value of a regression series at one position. -/
def lrF (emit : F → F → F → F → F → F) (p : Nat) (x : Nat → F) (i : Nat) : F :=
  if i + 1 < p then fl 0
  else
    let pF : F := fl p
    let sumX := pF *. (pF -. fl 1) *. lit (1 / 2)
    let sumXSqr := pF *. (pF -. fl 1) *. (fl 2 *. pF -. fl 1) /. fl 6
    emit pF sumX (sumX *. sumX -. pF *. sumXSqr) (lrS p x (i + 1 - p)).1 (lrS p x (i + 1 - p)).2

theorem linRegCore_tab (emit : F → F → F → F → F → F) (p n : Nat) (hp : 0 < p) (x : Nat → F) :
    linRegCore emit (tab n x) p
      = if p ≤ n then .ok (tab n (lrF emit p x)) else .error .index := by
  unfold linRegCore
  simp only [tab_length, mk_nat, ok_bind]
  rw [if_neg (by omega)]
  have e1 : (p : Int) - 1 = ((p - 1 : Nat) : Int) := by omega
  by_cases h2 : p ≤ n
  · rw [if_pos h2]
    rw [goFor_acc₀ (hi := p) (s := ((fl 0 : F), (fl 0 : F)))
      (fun k => (lrXY0 p x k, accum x 0 k)) rfl]
    · simp only [ok_bind, e1]
      rw [goFor_fill_from (lo := p - 1) (z := fl 0) (lrF emit p x)
        (fun k => ((lrS p x (k - 1 - (p - 1))).1, (lrS p x (k - 1 - (p - 1))).2, (k : Int)))]
      · rfl
      · have : p - 1 - 1 - (p - 1) = 0 := by omega
        rw [this]; rfl
      · intro j hj; rw [lrF, if_pos (by omega)]
      · intro k hk hk'
        have e4 : k + 1 - p = k - (p - 1) := by omega
        have e5 : k + 1 - 1 - (p - 1) = k - (p - 1) := by omega
        have key : (if (k : Int) > ((p - 1 : Nat) : Int) then (do
              let tempValue2 ← idx (tab n x) ((k : Int) - (p : Int))
              let cur ← idx (tab n x) (k : Int)
              pure ((lrS p x (k - 1 - (p - 1))).1 +.
                  ((lrS p x (k - 1 - (p - 1))).2 -. fl p *. tempValue2),
                (lrS p x (k - 1 - (p - 1))).2 +. (cur -. tempValue2)))
            else pure ((lrS p x (k - 1 - (p - 1))).1, (lrS p x (k - 1 - (p - 1))).2))
            = (.ok ((lrS p x (k - (p - 1))).1, (lrS p x (k - (p - 1))).2) : Go (F × F)) := by
          by_cases hgt : p - 1 < k
          · rw [if_pos (by omega)]
            have e6 : (k : Int) - (p : Int) = ((k - p : Nat) : Int) := by omega
            rw [e6]
            simp only [idx_tab hk', idx_tab (show k - p < n by omega), ok_bind, pure_eq_ok]
            have e7 : k - (p - 1) = (k - p) + 1 := by omega
            have e8 : k - 1 - (p - 1) = k - p := by omega
            have e9 : p + (k - p) = k := by omega
            rw [e7, e8, lrS, e9]
          · rw [if_neg (by omega)]
            have : k - 1 - (p - 1) = k - (p - 1) := by omega
            rw [this]; rfl
        rw [key]
        simp only [ok_bind]
        rw [setAt_filled (f := lrF emit p x) hk' (by
          rw [lrF, if_neg (by omega), e4])]
        simp only [ok_bind, pure_eq_ok]
        rw [e5]; simp
    · intro k hk
      have e2 : (p : Int) - 1 - ((p : Int) - 1 - (k : Int)) = (k : Int) := by omega
      simp only [e2, idx_tab (show k < n by omega), ok_bind, pure_eq_ok]
      simp [lrXY0, accum]
  · rw [if_neg h2]
    rw [goFor_error_at₀ (m := n) (e := .index) (by omega)]
    · rfl
    · rintro k ⟨a, b⟩ hk
      have e2 : (p : Int) - 1 - ((p : Int) - 1 - (k : Int)) = (k : Int) := by omega
      simp only [e2, idx_tab hk, ok_bind]
      exact ⟨_, rfl⟩
    · rintro ⟨a, b⟩
      have e2 : (p : Int) - 1 - ((p : Int) - 1 - (n : Int)) = (n : Int) := by omega
      simp only [e2, idx_tab_ge (Int.le_refl _), error_bind]

/-! ## True range -/

/-- Models utils/ta/ta.go:164-190 `TRange`. -/
def TRange (inHigh inLow inClose : List F) : Go (List F) := do
  let outReal ← mk inClose.length (fl 0)
  let startIdx : Int := 1
  let (_, outReal) ← goFor startIdx inClose.length (startIdx, outReal) fun today (outIdx, r) => do
    let tempLT ← idx inLow today
    let tempHT ← idx inHigh today
    let tempCY ← idx inClose (today - 1)
    let greatest := tempHT -. tempLT
    let val2 := abs (tempCY -. tempHT)
    let greatest := if val2 >. greatest then val2 else greatest
    let val3 := abs (tempCY -. tempLT)
    let greatest := if val3 >. greatest then val3 else greatest
    let r ← setAt r outIdx greatest
    pure (outIdx + 1, r)
  pure outReal

/-- Models utils/ta/ta.go:973-998 `TrueRange` (the same text as `TRange`). -/
def TrueRange (inHigh inLow inClose : List F) : Go (List F) := do
  let outReal ← mk inClose.length (fl 0)
  let startIdx : Int := 1
  let (_, outReal) ← goFor startIdx inClose.length (startIdx, outReal) fun today (outIdx, r) => do
    let tempLT ← idx inLow today
    let tempHT ← idx inHigh today
    let tempCY ← idx inClose (today - 1)
    let greatest := tempHT -. tempLT
    let val2 := abs (tempCY -. tempHT)
    let greatest := if val2 >. greatest then val2 else greatest
    let val3 := abs (tempCY -. tempLT)
    let greatest := if val3 >. greatest then val3 else greatest
    let r ← setAt r outIdx greatest
    pure (outIdx + 1, r)
  pure outReal

/-- The comparison cascade of `TRange`. -/
def trStep (h l c : F) : F :=
  let g := h -. l
  let v2 := abs (c -. h)
  let g := if v2 >. g then v2 else g
  let v3 := abs (c -. l)
  if v3 >. g then v3 else g

/-- The value of `TRange` at one position. -/
def trF (h l c : Nat → F) : Nat → F
  | 0 => fl 0
  | k + 1 => trStep (h (k + 1)) (l (k + 1)) (c k)

theorem TRange_tab (n : Nat) (h l c : Nat → F) :
    TRange (tab n h) (tab n l) (tab n c) = .ok (tab n (trF h l c)) := by
  simp only [TRange, tab_length, mk_nat, ok_bind]
  rw [show (1 : Int) = ((1 : Nat) : Int) from rfl,
    goFor_fill_from (lo := 1) (z := fl 0) (trF h l c) (fun k => (k : Int)) rfl]
  · rfl
  · intro j hj
    have : j = 0 := by omega
    subst this; rfl
  · intro k hk hk'
    obtain ⟨k, rfl⟩ : ∃ m, k = m + 1 := ⟨k - 1, by omega⟩
    have e : ((k + 1 : Nat) : Int) - ((1 : Nat) : Int) = (k : Int) := by omega
    simp only [idx_tab hk', e, idx_tab (show k < n by omega), ok_bind]
    rw [setAt_filled (f := trF h l c) hk' (by rw [trF, trStep])]
    simp

theorem TrueRange_eq (h l c : List F) : TrueRange h l c = TRange h l c := rfl

/-- Models utils/ta/ta.go:440-471 `Atr`. -/
def Atr (inHigh inLow inClose : List F) (inTimePeriod : Int) : Go (List F) := do
  let outReal ← mk inClose.length (fl 0)
  let pF : F := fl inTimePeriod
  if inTimePeriod < 1 then pure outReal
  else if inTimePeriod ≤ 1 then TRange inHigh inLow inClose
  else
    let today := inTimePeriod + 1
    let tr ← TRange inHigh inLow inClose
    let prevATRTemp ← Rma inTimePeriod tr
    let prevATR ← idx prevATRTemp inTimePeriod
    let outReal ← setAt outReal inTimePeriod prevATR
    let (_, outReal) ← goFor (inTimePeriod + 1) inClose.length ((prevATR, today), outReal)
      fun outIdx ((prevATR, today), r) => do
        let prevATR := prevATR *. (pF -. fl 1)
        let t ← idx tr today
        let prevATR := prevATR +. t
        let prevATR := prevATR /. pF
        let r ← setAt r outIdx prevATR
        pure ((prevATR, today + 1), r)
    pure outReal

/-- The Wilder recursion of `Atr` and `Natr`, `m` steps after the start value. -/
def wilder (p : Nat) (start : F) (tr : Nat → F) : Nat → F
  | 0 => start
  | m + 1 => (wilder p start tr m *. (fl p -. fl 1) +. tr (p + (m + 1))) /. fl p

/-- The value of `Atr` at one position (period `>= 2`). -/
def atrF (p : Nat) (h l c : Nat → F) (i : Nat) : F :=
  if i < p then fl 0 else wilder p (rmaF p (trF h l c) p) (trF h l c) (i - p)

/-- General fill loop continuing from an already filled prefix. -/
theorem goFor_fill_cont {α σ : Type _} {n lo : Nat} {z : α} {s : σ}
    {body : Int → σ × List α → Go (σ × List α)} (f : Nat → α) (S : Nat → σ) (h0 : S lo = s)
    (hl : lo ≤ n)
    (hb : ∀ k, lo ≤ k → k < n →
      body k (S k, filled n k f z) = .ok (S (k + 1), filled n (k + 1) f z)) :
    goFor lo n (s, filled n lo f z) body = .ok (S n, tab n f) := by
  rw [goFor_acc hl (fun k => (S k, filled n k f z)) (by rw [h0])]
  · rw [filled_full]
  · intro k h1 h2; exact hb k h1 h2

theorem Atr_tab (p n : Nat) (hp : 2 ≤ p) (h l c : Nat → F) :
    Atr (tab n h) (tab n l) (tab n c) p
      = if p < n then .ok (tab n (atrF p h l c)) else .error .index := by
  unfold Atr
  simp only [tab_length, mk_nat, ok_bind]
  rw [if_neg (by omega), if_neg (by omega)]
  simp only [TRange_tab, Rma_tab, ok_bind]
  by_cases h2 : p < n
  · rw [if_pos h2]
    simp only [idx_tab h2, ok_bind]
    have hst : List.replicate n (fl 0 : F) = filled n p (atrF p h l c) (fl 0) := by
      rw [replicate_eq_tab]
      exact tab_ext fun i _ => by by_cases hi : i < p <;> simp [hi, atrF]
    rw [hst, setAt_filled h2 (by simp [atrF, wilder])]
    simp only [ok_bind]
    have e1 : (p : Int) + 1 = ((p + 1 : Nat) : Int) := by omega
    rw [e1, goFor_fill_cont (lo := p + 1) (z := fl 0) (atrF p h l c)
      (fun k => (wilder p (rmaF p (trF h l c) p) (trF h l c) (k - 1 - p), (k : Int)))]
    · rfl
    · have : p + 1 - 1 - p = 0 := by omega
      rw [this]; rfl
    · omega
    · intro k hk hk'
      simp only [idx_tab hk', ok_bind]
      have e2 : k - p = (k - 1 - p) + 1 := by omega
      have e3 : p + (k - 1 - p + 1) = k := by omega
      rw [setAt_filled (f := atrF p h l c) hk' (by
        rw [atrF, if_neg (by omega), e2, wilder, e3])]
      simp only [ok_bind, pure_eq_ok]
      have e4 : k + 1 - 1 - p = (k - 1 - p) + 1 := by omega
      rw [e4, wilder, e3]
      simp
  · rw [if_neg h2, idx_tab_ge (by omega)]; rfl

theorem Atr_one (n : Nat) (h l c : Nat → F) :
    Atr (tab n h) (tab n l) (tab n c) 1 = .ok (tab n (trF h l c)) := by
  unfold Atr
  simp [TRange_tab]

theorem Atr_nonpos {p : Int} (hp : p < 1) (h l c : List F) :
    Atr h l c p = .ok (List.replicate c.length (fl 0)) := by
  unfold Atr; simp [hp]

/-- Models utils/ta/ta.go:474-515 `Natr`. -/
def Natr (inHigh inLow inClose : List F) (inTimePeriod : Int) : Go (List F) := do
  let outReal ← mk inClose.length (fl 0)
  if inTimePeriod < 1 then pure outReal
  else if inTimePeriod ≤ 1 then TRange inHigh inLow inClose
  else
    let pF : F := fl inTimePeriod
    let outIdx := inTimePeriod
    let today := inTimePeriod
    let tr ← TRange inHigh inLow inClose
    let prevATRTemp ← Sma inTimePeriod tr
    let prevATR ← idx prevATRTemp inTimePeriod
    let tempValue ← idx inClose today
    let outReal ←
      (if !(tempValue ==. fl 0) then setAt outReal outIdx ((prevATR /. tempValue) *. fl 100)
      else setAt outReal outIdx (fl 0))
    let (_, outReal) ← goFor (inTimePeriod + 1) inClose.length ((prevATR, today), outReal)
      fun outIdx ((prevATR, today), r) => do
        let today := today + 1
        let prevATR := prevATR *. (pF -. fl 1)
        let t ← idx tr today
        let prevATR := prevATR +. t
        let prevATR := prevATR /. pF
        let tempValue ← idx inClose today
        let r ←
          (if !(tempValue ==. fl 0) then setAt r outIdx ((prevATR /. tempValue) *. fl 100)
          else setAt r 0 (fl 0))
        pure ((prevATR, today), r)
    pure outReal

/-- The value of `Natr` at one position (period `>= 2`). -/
def natrF (p : Nat) (h l c : Nat → F) (i : Nat) : F :=
  if i < p then fl 0
  else if c i ==. fl 0 then fl 0
  else wilder p (smaF p (trF h l c) p) (trF h l c) (i - p) /. c i *. fl 100

theorem Natr_tab (p n : Nat) (hp : 2 ≤ p) (h l c : Nat → F) :
    Natr (tab n h) (tab n l) (tab n c) p
      = if p < n then .ok (tab n (natrF p h l c)) else .error .index := by
  unfold Natr
  simp only [tab_length, mk_nat, ok_bind]
  rw [if_neg (by omega), if_neg (by omega)]
  simp only [TRange_tab, Sma_tab, ok_bind]
  by_cases h2 : p < n
  · rw [if_pos h2]
    simp only [idx_tab h2, ok_bind]
    have hst : List.replicate n (fl 0 : F) = filled n p (natrF p h l c) (fl 0) := by
      rw [replicate_eq_tab]
      exact tab_ext fun i _ => by by_cases hi : i < p <;> simp [hi, natrF]
    rw [hst]
    have hfirst : (if (!(c p ==. fl 0)) = true then
          setAt (filled n p (natrF p h l c) (fl 0)) (p : Int)
            ((smaF p (trF h l c) p /. c p) *. fl 100)
        else setAt (filled n p (natrF p h l c) (fl 0)) (p : Int) (fl 0))
        = .ok (filled n (p + 1) (natrF p h l c) (fl 0)) := by
      by_cases hz : (c p ==. fl 0) = true
      · simp only [hz, Bool.not_true, Bool.false_eq_true, if_false]
        exact setAt_filled h2 (by simp [natrF, hz])
      · simp only [hz, Bool.not_false, if_true]
        exact setAt_filled h2 (by simp [natrF, hz, wilder])
    rw [hfirst]
    simp only [ok_bind]
    have e1 : (p : Int) + 1 = ((p + 1 : Nat) : Int) := by omega
    rw [e1, goFor_fill_cont (lo := p + 1) (z := fl 0) (natrF p h l c)
      (fun k => (wilder p (smaF p (trF h l c) p) (trF h l c) (k - 1 - p), (k : Int) - 1))]
    · rfl
    · have : p + 1 - 1 - p = 0 := by omega
      rw [this]; simp [wilder]
    · omega
    · intro k hk hk'
      have e0 : (k : Int) - 1 + 1 = (k : Int) := by omega
      simp only [e0, idx_tab hk', ok_bind]
      have e2 : k - p = (k - 1 - p) + 1 := by omega
      have e3 : p + (k - 1 - p + 1) = k := by omega
      have e4 : k + 1 - 1 - p = (k - 1 - p) + 1 := by omega
      by_cases hz : (c k ==. fl 0) = true
      · simp only [hz, Bool.not_true, Bool.false_eq_true, if_false]
        have : setAt (filled n k (natrF p h l c) (fl 0)) 0 (fl 0)
            = .ok (filled n (k + 1) (natrF p h l c) (fl 0)) := by
          unfold filled
          refine (setAt_tab (i := 0) (by omega)).trans ?_
          congr 1
          apply tab_ext
          intro j _
          by_cases h1 : j = 0
          · subst h1
            have : natrF p h l c 0 = fl 0 := by rw [natrF, if_pos (by omega)]
            simp [this]
          · by_cases h3 : j = k
            · subst h3
              have : natrF p h l c j = fl 0 := by simp [natrF, hz]
              simp [h1, this]
            · have : (j < k + 1) = (j < k) := by simp; omega
              simp [h1, this]
        rw [this]
        simp only [ok_bind, pure_eq_ok]
        rw [e4, wilder, e3]
        simp
      · simp only [hz, Bool.not_false, if_true]
        rw [setAt_filled (f := natrF p h l c) hk' (by
          rw [natrF, if_neg (by omega), if_neg hz, e2, wilder, e3])]
        simp only [ok_bind, pure_eq_ok]
        rw [e4, wilder, e3]
        simp
  · rw [if_neg h2, idx_tab_ge (by omega)]; rfl

end Verif.Ta
