import Verif.Ta.Roll
import Verif.Ta.Window

/-!
# Remaining helpers of `utils/ta/ta.go` and `utils/regression.go`
-/

namespace Verif.Ta
open GoFloat Verif.Container

variable {F : Type} [GoFloat F]

/-! ## Highest, Lowest -/

/-- Models utils/ta/ta.go:773-785 `Highest`. The downward loop is written over
`d = len(values)-1-i`; the `break` at `i < 0` ends it after all values. -/
def Highest (values : List F) (lenght : Int) : Go F := do
  let result ← idx values (values.length - 1)
  goFor 0 (min lenght values.length) result fun d result => do
    let v ← idx values (values.length - 1 - d)
    if v >. result then pure v else pure result

/-- Models utils/ta/ta.go:792-803 `Lowest`. -/
def Lowest (values : List F) (lenght : Int) : Go F := do
  let result ← idx values (values.length - 1)
  goFor 0 (min lenght values.length) result fun d result => do
    let v ← idx values (values.length - 1 - d)
    if v <. result then pure v else pure result

/-! ## Pivots -/

/-- Models utils/ta/ta.go:806-820 `PivotHigh`. -/
def PivotHigh (values : List F) (left right : Int) : Go (List F) := do
  let pivot ← mk values.length (fl 0)
  goFor (left + right) values.length pivot fun i pivot => do
    let rolling ← slice values (i - right - left) (i + 1)
    let bst := Bst.nil.inserts compareFloat64 rolling
    match bst.max with
    | none => .error .typeAssert
    | some m => do
      let v ← idx values (i - right)
      if v ==. m then setAt pivot i m else pure pivot

/-- Models utils/ta/ta.go:823-837 `PivotLow`. -/
def PivotLow (values : List F) (left right : Int) : Go (List F) := do
  let pivot ← mk values.length (fl 0)
  goFor (left + right) values.length pivot fun i pivot => do
    let rolling ← slice values (i - right - left) (i + 1)
    let bst := Bst.nil.inserts compareFloat64 rolling
    match bst.min with
    | none => .error .typeAssert
    | some m => do
      let v ← idx values (i - right)
      if v ==. m then setAt pivot i m else pure pivot

/-- The tree of a pivot window. -/
def pivotTree (l r : Nat) (x : Nat → F) (i : Nat) : Bst F :=
  Bst.nil.inserts compareFloat64 (tab (l + r + 1) fun j => x (i - r - l + j))

/-- The value of `PivotHigh` at one position. -/
def pivotHighF (l r : Nat) (x : Nat → F) (i : Nat) : F :=
  if i < l + r then fl 0
  else match (pivotTree l r x i).max with
    | none => fl 0
    | some m => if x (i - r) ==. m then m else fl 0

/-- The value of `PivotLow` at one position. -/
def pivotLowF (l r : Nat) (x : Nat → F) (i : Nat) : F :=
  if i < l + r then fl 0
  else match (pivotTree l r x i).min with
    | none => fl 0
    | some m => if x (i - r) ==. m then m else fl 0

theorem length_inserts {V : Type} (cmp : V → V → Int) (vs : List V) (t : Bst V) :
    (t.inserts cmp vs).toList.length = t.toList.length + vs.length := by
  induction vs generalizing t with
  | nil => rfl
  | cons v vs ih =>
    have := ih (t.insert cmp v)
    rw [Bst.length_insert] at this
    show ((t.insert cmp v).inserts cmp vs).toList.length = _
    rw [this]; simp; omega

theorem pivotTree_length (l r : Nat) (x : Nat → F) (i : Nat) :
    0 < (pivotTree l r x i).toList.length := by
  rw [pivotTree, length_inserts]; simp

theorem PivotHigh_tab (n l r : Nat) (x : Nat → F) :
    PivotHigh (tab n x) l r = .ok (tab n (pivotHighF l r x)) := by
  simp only [PivotHigh, tab_length, mk_nat, ok_bind]
  have e : (l : Int) + (r : Int) = ((l + r : Nat) : Int) := by omega
  rw [e]
  refine goFor_fill_from₀ _ (fun j hj => by rw [pivotHighF, if_pos hj]) fun k hk hk' => ?_
  have e1 : (k : Int) - (r : Int) - (l : Int) = ((k - r - l : Nat) : Int) := by omega
  have e2 : (k : Int) + 1 = ((k + 1 : Nat) : Int) := by omega
  have e3 : (k : Int) - (r : Int) = ((k - r : Nat) : Int) := by omega
  have e4 : k + 1 - (k - r - l) = l + r + 1 := by omega
  simp only [e1]
  rw [e2, slice_tab x (by omega) (by omega), e4, e3]
  simp only [ok_bind]
  obtain ⟨m, hm⟩ := Option.isSome_iff_exists.mp (Bst.max_isSome_of_length (pivotTree_length l r x k))
  have hm' := hm
  rw [pivotTree] at hm'
  simp only [hm', idx_tab (show k - r < n by omega), ok_bind]
  split
  · next h => rw [setAt_filled hk' (by simp [pivotHighF, show ¬ k < l + r by omega, hm, h])]
  · next h =>
    rw [pure_eq_ok]; congr 1
    unfold filled
    apply tab_ext
    intro j _
    by_cases hj : j = k
    · subst hj
      simp [pivotHighF, show ¬ j < l + r by omega, hm, h]
    · have : (j < k + 1) = (j < k) := by simp; omega
      simp [this]

theorem PivotLow_tab (n l r : Nat) (x : Nat → F) :
    PivotLow (tab n x) l r = .ok (tab n (pivotLowF l r x)) := by
  simp only [PivotLow, tab_length, mk_nat, ok_bind]
  have e : (l : Int) + (r : Int) = ((l + r : Nat) : Int) := by omega
  rw [e]
  refine goFor_fill_from₀ _ (fun j hj => by rw [pivotLowF, if_pos hj]) fun k hk hk' => ?_
  have e1 : (k : Int) - (r : Int) - (l : Int) = ((k - r - l : Nat) : Int) := by omega
  have e2 : (k : Int) + 1 = ((k + 1 : Nat) : Int) := by omega
  have e3 : (k : Int) - (r : Int) = ((k - r : Nat) : Int) := by omega
  have e4 : k + 1 - (k - r - l) = l + r + 1 := by omega
  simp only [e1]
  rw [e2, slice_tab x (by omega) (by omega), e4, e3]
  simp only [ok_bind]
  obtain ⟨m, hm⟩ := Option.isSome_iff_exists.mp (Bst.min_isSome_of_length (pivotTree_length l r x k))
  have hm' := hm
  rw [pivotTree] at hm'
  simp only [hm', idx_tab (show k - r < n by omega), ok_bind]
  split
  · next h => rw [setAt_filled hk' (by simp [pivotLowF, show ¬ k < l + r by omega, hm, h])]
  · next h =>
    rw [pure_eq_ok]; congr 1
    unfold filled
    apply tab_ext
    intro j _
    by_cases hj : j = k
    · subst hj
      simp [pivotLowF, show ¬ j < l + r by omega, hm, h]
    · have : (j < k + 1) = (j < k) := by simp; omega
      simp [this]

/-- Models utils/ta/ta.go:840-879 `PivotMax`. The `break`s at the ends of the slice are written as
loop bounds: leftwards `min left index` steps, rightwards `min right (len-1-index)` steps (for an
index beyond the slice the first read panics, before it for a negative index no value is read by the
first loop but the second one panics). -/
def PivotMax (values : List F) (index left right : Int) : Go (F × Int) := do
  let (leftVal, leftPositions) ←
    goFor 0 (min left index + 1) ((fl 0 : F), index) fun i (leftVal, leftPositions) => do
      let newIndex := index - i
      let v ← idx values newIndex
      if v >. leftVal then pure (v, newIndex) else pure (leftVal, leftPositions)
  let (rightVal, rightPositions) ←
    goFor 0 (min right (values.length - 1 - index) + 1) ((fl 0 : F), index)
      fun i (rightVal, rightPositions) => do
        let newIndex := index + i
        let v ← idx values newIndex
        if v >. rightVal then pure (v, newIndex) else pure (rightVal, rightPositions)
  if leftVal >. rightVal then pure (leftVal, leftPositions)
  else if leftVal <. rightVal then pure (rightVal, rightPositions)
  else
    let v ← idx values index
    pure (v, index)

/-- Models utils/ta/ta.go:882-921 `PivotMin`, with the loop bounds written as for `PivotMax`. -/
def PivotMin (values : List F) (index left right : Int) : Go (F × Int) := do
  let v0 ← idx values index
  let (leftVal, leftPositions) ←
    goFor 0 (min left index + 1) (v0, index) fun i (leftVal, leftPositions) => do
      let newIndex := index - i
      let v ← idx values newIndex
      if v <. leftVal then pure (v, newIndex) else pure (leftVal, leftPositions)
  let (rightVal, rightPositions) ←
    goFor 0 (min right (values.length - 1 - index) + 1) (v0, index)
      fun i (rightVal, rightPositions) => do
        let newIndex := index + i
        let v ← idx values newIndex
        if v <. rightVal then pure (v, newIndex) else pure (rightVal, rightPositions)
  if leftVal <. rightVal then pure (leftVal, leftPositions)
  else if leftVal >. rightVal then pure (rightVal, rightPositions)
  else
    let v ← idx values index
    pure (v, index)

/-! ## Stochastic -/

/-- Models utils/ta/ta.go:192-199 `Stochastic`. -/
def Stochastic (closing highs lows : List F) (period : Int) : Go (List F × List F) := do
  let highestHigh ← Max period highs
  let lowestLow ← Min period lows
  let a ← Subtract closing lowestLow
  let b ← Subtract highestHigh lowestLow
  let q ← Divide a b
  let k ← MultiplyBy q (fl 100)
  let d ← Sma 3 k
  pure (k, d)

/-- The K value of `Stochastic` at one position. -/
def stochF (p : Nat) (c h l : Nat → F) (i : Nat) : F :=
  safeDiv (subF (c i) (minF p l i)) (subF (maxF p h i) (minF p l i)) *. fl 100

theorem Stochastic_tab (p n : Nat) (hp : 0 < p) (c h l : Nat → F) :
    Stochastic (tab n c) (tab n h) (tab n l) p
      = .ok (tab n (stochF p c h l), tab n (smaF 3 (stochF p c h l))) := by
  simp only [Stochastic, Max_tab hp, Min_tab hp, Subtract_tab, Divide_tab, MultiplyBy_tab, ok_bind,
    Nat.le_refl, if_true]
  have h3 := Sma_tab 3 n (stochF p c h l)
  rw [show ((3 : Nat) : Int) = 3 from rfl] at h3
  show (Sma 3 (tab n (stochF p c h l)) >>= fun d => pure (tab n (stochF p c h l), d)) = _
  rw [h3]; rfl

/-! ## Scalars and maps needing `math` functions -/

section math
variable {F : Type} [GoMath F]

/-- Models utils/ta/ta.go:637-644 `RoundDigits`. -/
def RoundDigits (value : F) (digits : Int) : F :=
  let n := GoMath.pow (fl 10) (fl digits)
  GoMath.round (value *. n) /. n

/-- Models utils/ta/ta.go:647-655 `RoundDigitsAll`. -/
def RoundDigitsAll (values : List F) (digits : Int) : Go (List F) := do
  let result ← mk values.length (fl 0)
  goFor 0 result.length result fun i r => do
    let v ← idx values i
    setAt r i (RoundDigits v digits)

/-- Models utils/ta/ta.go:671-679 `Pow`. -/
def Pow (base : List F) (exponent : F) : Go (List F) := do
  let result ← mk base.length (fl 0)
  goFor 0 result.length result fun i r => do
    let v ← idx base i
    setAt r i (GoMath.pow v exponent)

/-- Models utils/ta/ta.go:942-950 `Sqrt`. -/
def Sqrt (values : List F) : Go (List F) := do
  let result ← mk values.length (fl 0)
  goFor 0 values.length result fun i r => do
    let v ← idx values i
    setAt r i (GoMath.sqrt v)

/-- Models utils/ta/ta.go:202-222 `SD`. -/
def SD (values : List F) : F :=
  let sum := values.foldl (fun sum k => sum +. k) (fl 0)
  let mean := sum /. fl values.length
  let sumOfSquares := values.foldl (fun s k =>
    let diff := k -. mean
    s +. diff *. diff) (fl 0)
  let variance := sumOfSquares /. fl values.length
  GoMath.sqrt variance

theorem RoundDigitsAll_tab (n : Nat) (x : Nat → F) (d : Int) :
    RoundDigitsAll (tab n x) d = .ok (tab n fun i => RoundDigits (x i) d) := by
  simp only [RoundDigitsAll, tab_length, mk_nat, ok_bind, List.length_replicate]
  exact goFor_fill₀ _ fun k hk => by
    simp only [idx_tab hk, ok_bind, setAt_filled hk rfl]

theorem Pow_tab (n : Nat) (x : Nat → F) (e : F) :
    Pow (tab n x) e = .ok (tab n fun i => GoMath.pow (x i) e) := by
  simp only [Pow, tab_length, mk_nat, ok_bind, List.length_replicate]
  exact goFor_fill₀ _ fun k hk => by
    simp only [idx_tab hk, ok_bind, setAt_filled hk rfl]

theorem Sqrt_tab (n : Nat) (x : Nat → F) :
    Sqrt (tab n x) = .ok (tab n fun i => GoMath.sqrt (x i)) := by
  simp only [Sqrt, tab_length, mk_nat, ok_bind]
  exact goFor_fill₀ _ fun k hk => by
    simp only [idx_tab hk, ok_bind, setAt_filled hk rfl]

end math

/-! ## utils/regression.go -/

/-- Slope formula shared by `LeastSquare` (23) and `MovingLeastSquare` (60). -/
def lsM (n sumX sumX2 sumY sumXY : F) : F :=
  ((n *. sumXY) -. (sumX *. sumY)) /. ((n *. sumX2) -. (sumX *. sumX))

/-- Models utils/regression.go:11-27 `LeastSquare`. -/
def LeastSquare (x y : List F) : Go (F × F) := do
  let (sumX, sumX2, sumY, sumXY) ←
    goFor 0 x.length ((fl 0 : F), (fl 0 : F), (fl 0 : F), (fl 0 : F))
      fun i (sumX, sumX2, sumY, sumXY) => do
        let a ← idx x i
        let b ← idx y i
        pure (sumX +. a, sumX2 +. a *. a, sumY +. b, sumXY +. a *. b)
  let n : F := fl x.length
  let m := lsM n sumX sumX2 sumY sumXY
  let b := (sumY -. (m *. sumX)) /. n
  pure (m, b)

/-- Models utils/regression.go:37-65 `MovingLeastSquare`. -/
def MovingLeastSquare (period : Int) (x y : List F) : Go (List F × List F) := do
  let m ← mk x.length (fl 0)
  let b ← mk x.length (fl 0)
  let (_, m, b) ← goFor 0 x.length (((fl 0 : F), (fl 0 : F), (fl 0 : F), (fl 0 : F)), m, b)
    fun i ((sumX, sumX2, sumY, sumXY), m, b) => do
      let xi ← idx x i
      let yi ← idx y i
      let sumX := sumX +. xi
      let sumX2 := sumX2 +. xi *. xi
      let sumY := sumY +. yi
      let sumXY := sumXY +. xi *. yi
      let ((sumX, sumX2, sumY, sumXY), n) ←
        (if i >= period then do
          let xo ← idx x (i - period)
          let yo ← idx y (i - period)
          pure ((sumX -. xo, sumX2 -. xo *. xo, sumY -. yo, sumXY -. xo *. yo), (fl period : F))
        else pure ((sumX, sumX2, sumY, sumXY), (fl (i + 1) : F)))
      let mi := lsM n sumX sumX2 sumY sumXY
      let m ← setAt m i mi
      let b ← setAt b i ((sumY -. (mi *. sumX)) /. n)
      pure ((sumX, sumX2, sumY, sumXY), m, b)
  pure (m, b)

/-- Models utils/regression.go:70-80 `LinearRegressionUsingLeastSquare`. -/
def LinearRegressionUsingLeastSquare (x y : List F) : Go (List F) := do
  let (m, b) ← LeastSquare x y
  let r ← mk x.length (fl 0)
  goFor 0 r.length r fun i r => do
    let xi ← idx x i
    setAt r i ((m *. xi) +. b)

/-- Models utils/regression.go:85-95 `MovingLinearRegressionUsingLeastSquare`. -/
def MovingLinearRegressionUsingLeastSquare (period : Int) (x y : List F) : Go (List F) := do
  let (m, b) ← MovingLeastSquare period x y
  let r ← mk x.length (fl 0)
  goFor 0 r.length r fun i r => do
    let mi ← idx m i
    let xi ← idx x i
    let bi ← idx b i
    setAt r i ((mi *. xi) +. bi)

/-- Sample size used by `MovingLeastSquare` at index `i`. -/
def mlsN (p i : Nat) : Int := if p ≤ i then (p : Int) else (i : Int) + 1

/-- Slope of `MovingLeastSquare` at one position. -/
def mlsM (p : Nat) (x y : Nat → F) (i : Nat) : F :=
  lsM (fl (mlsN p i)) (runSum p x (i + 1)) (runSum p (fun j => x j *. x j) (i + 1))
    (runSum p y (i + 1)) (runSum p (fun j => x j *. y j) (i + 1))

/-- Intercept of `MovingLeastSquare` at one position. -/
def mlsB (p : Nat) (x y : Nat → F) (i : Nat) : F :=
  (runSum p y (i + 1) -. (mlsM p x y i *. runSum p x (i + 1))) /. fl (mlsN p i)

theorem MovingLeastSquare_tab (p n : Nat) (x y : Nat → F) :
    MovingLeastSquare p (tab n x) (tab n y) = .ok (tab n (mlsM p x y), tab n (mlsB p x y)) := by
  simp only [MovingLeastSquare, tab_length, mk_nat, ok_bind]
  rw [goFor_acc₀ (hi := n) (fun k => ((runSum p x k, runSum p (fun j => x j *. x j) k, runSum p y k,
    runSum p (fun j => x j *. y j) k), filled n k (mlsM p x y) (fl 0), filled n k (mlsB p x y) (fl 0)))]
  · simp only [ok_bind, filled_full]; rfl
  · simp only [runSum, ← filled_zero]
  · intro k hk
    simp only [idx_tab hk, ok_bind]
    by_cases h : p ≤ k
    · have e : (k : Int) - (p : Int) = ((k - p : Nat) : Int) := by omega
      simp only [ge_iff_le, Int.ofNat_le, h, if_true, e, idx_tab (show k - p < n by omega), ok_bind,
        pure_eq_ok]
      rw [setAt_filled (f := mlsM p x y) hk (by simp [mlsM, runSum, h, mlsN])]
      simp only [ok_bind]
      rw [setAt_filled (f := mlsB p x y) hk (by simp [mlsB, mlsM, runSum, h, mlsN])]
      simp [runSum, h]
    · simp only [ge_iff_le, Int.ofNat_le, h, if_false, ok_bind, pure_eq_ok]
      rw [setAt_filled (f := mlsM p x y) hk (by simp [mlsM, runSum, h, mlsN])]
      simp only [ok_bind]
      rw [setAt_filled (f := mlsB p x y) hk (by simp [mlsB, mlsM, runSum, h, mlsN])]
      simp [runSum, h]

theorem MovingLinearRegression_tab (p n : Nat) (x y : Nat → F) :
    MovingLinearRegressionUsingLeastSquare p (tab n x) (tab n y)
      = .ok (tab n fun i => (mlsM p x y i *. x i) +. mlsB p x y i) := by
  simp only [MovingLinearRegressionUsingLeastSquare, MovingLeastSquare_tab, tab_length, mk_nat,
    ok_bind, List.length_replicate]
  exact goFor_fill₀ _ fun k hk => by
    simp only [idx_tab hk, ok_bind, setAt_filled hk rfl]

/-- Slope of `LeastSquare` on the whole series. -/
def lsMF (n : Nat) (x y : Nat → F) : F :=
  lsM (fl n) (accum x 0 n) (accum (fun j => x j *. x j) 0 n) (accum y 0 n)
    (accum (fun j => x j *. y j) 0 n)

/-- Intercept of `LeastSquare` on the whole series. -/
def lsBF (n : Nat) (x y : Nat → F) : F := (accum y 0 n -. (lsMF n x y *. accum x 0 n)) /. fl n

theorem LeastSquare_tab (n : Nat) (x y : Nat → F) :
    LeastSquare (tab n x) (tab n y) = .ok (lsMF n x y, lsBF n x y) := by
  simp only [LeastSquare, tab_length]
  rw [goFor_acc₀ (hi := n) (s := ((fl 0 : F), (fl 0 : F), (fl 0 : F), (fl 0 : F)))
    (fun k => (accum x 0 k, accum (fun j => x j *. x j) 0 k, accum y 0 k,
    accum (fun j => x j *. y j) 0 k)) rfl]
  · rfl
  · intro k hk
    simp only [idx_tab hk, ok_bind, pure_eq_ok]
    simp [accum]

theorem LinearRegression_tab (n : Nat) (x y : Nat → F) :
    LinearRegressionUsingLeastSquare (tab n x) (tab n y)
      = .ok (tab n fun i => (lsMF n x y *. x i) +. lsBF n x y) := by
  simp only [LinearRegressionUsingLeastSquare, LeastSquare_tab, tab_length, mk_nat,
    ok_bind, List.length_replicate]
  exact goFor_fill₀ _ fun k hk => by
    simp only [idx_tab hk, ok_bind, setAt_filled hk rfl]

end Verif.Ta
