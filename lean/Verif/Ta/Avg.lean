import Verif.Ta.Elem

/-!
# Moving averages of `utils/ta/ta.go`
-/

namespace Verif.Ta
open GoFloat

variable {F : Type} [GoFloat F]

/-! ## Sma, Sum -/

/-- Models utils/ta/ta.go:244-267 `Sma` (the final `values = nil` only drops the local name). -/
def Sma (period : Int) (values : List F) : Go (List F) := do
  let result ← mk values.length (fl 0)
  let (_, result) ← goFor 0 values.length ((fl 0 : F), result) fun i (sum, r) => do
    let value ← idx values i
    let count := i + 1
    let sum := sum +. value
    if i >= period then
      let old ← idx values (i - period)
      let sum := sum -. old
      let count := period
      let val := sum /. fl count
      let r ← setAt r i (if isNaN val || isNegInf val then fl 0 else val)
      pure (sum, r)
    else
      let val := sum /. fl count
      let r ← setAt r i (if isNaN val || isNegInf val then fl 0 else val)
      pure (sum, r)
  pure result

/-- Models utils/ta/ta.go:924-939 `Sum`. -/
def Sum (period : Int) (values : List F) : Go (List F) := do
  let result ← mk values.length (fl 0)
  let (_, result) ← goFor 0 values.length ((fl 0 : F), result) fun i (sum, r) => do
    let v ← idx values i
    let sum := sum +. v
    if i >= period then
      let old ← idx values (i - period)
      let sum := sum -. old
      let r ← setAt r i sum
      pure (sum, r)
    else
      let r ← setAt r i sum
      pure (sum, r)
  pure result

/-- The running window sum kept by `Sma` and `Sum` after `k` values. -/
def runSum (p : Nat) (x : Nat → F) : Nat → F
  | 0 => fl 0
  | k + 1 => if p ≤ k then runSum p x k +. x k -. x (k - p) else runSum p x k +. x k

/-- The value `Sma` stores for a quotient. -/
def smaFix (v : F) : F := if isNaN v || isNegInf v then fl 0 else v

/-- The value of `Sma` at one position. -/
def smaF (p : Nat) (x : Nat → F) (i : Nat) : F :=
  smaFix (runSum p x (i + 1) /. fl (if p ≤ i then (p : Int) else (i : Int) + 1))

theorem Sma_tab (p n : Nat) (x : Nat → F) : Sma p (tab n x) = .ok (tab n (smaF p x)) := by
  simp only [Sma, tab_length, mk_nat, ok_bind]
  rw [goFor_fill (s := fl 0) (smaF p x) (runSum p x) rfl]
  · rfl
  · intro k hk
    simp only [idx_tab hk, ok_bind]
    by_cases h : p ≤ k
    · have e : (k : Int) - (p : Int) = ((k - p : Nat) : Int) := by omega
      rw [if_pos (by omega), e]
      simp only [idx_tab (show k - p < n by omega), ok_bind]
      rw [setAt_filled (f := smaF p x) hk (by simp [smaF, smaFix, runSum, h])]
      simp [runSum, h]
    · rw [if_neg (by omega)]
      rw [setAt_filled (f := smaF p x) hk (by simp [smaF, smaFix, runSum, h])]
      simp [runSum, h]

theorem Sum_tab (p n : Nat) (x : Nat → F) :
    Sum p (tab n x) = .ok (tab n fun i => runSum p x (i + 1)) := by
  simp only [Sum, tab_length, mk_nat, ok_bind]
  rw [goFor_fill (s := fl 0) (fun i => runSum p x (i + 1)) (runSum p x) rfl]
  · rfl
  · intro k hk
    simp only [idx_tab hk, ok_bind]
    by_cases h : p ≤ k
    · have e : (k : Int) - (p : Int) = ((k - p : Nat) : Int) := by omega
      rw [if_pos (by omega), e]
      simp only [idx_tab (show k - p < n by omega), ok_bind]
      rw [setAt_filled (f := fun i => runSum p x (i + 1)) hk (by simp [runSum, h])]
      simp [runSum, h]
    · rw [if_neg (by omega)]
      rw [setAt_filled (f := fun i => runSum p x (i + 1)) hk (by simp [runSum, h])]
      simp [runSum, h]

/-- A negative period makes `Sma` and `Sum` panic on every non-empty series. -/
theorem Sma_neg {p : Int} (hp : p < 0) (n : Nat) (x : Nat → F) (hn : 0 < n) :
    Sma p (tab n x) = .error .index := by
  simp only [Sma, tab_length, mk_nat, ok_bind]
  obtain ⟨q, rfl⟩ : ∃ q : Nat, p = -(q : Int) := ⟨p.natAbs, by omega⟩
  unfold goFor
  have e0 : ((n : Int) - 0).toNat = n := by omega
  rw [e0, goForFrom_inv_error (n - q) (by omega) (fun _ (s : F × List F) => s.2.length = n)
    (by simp)]
  · rfl
  · rintro k ⟨s, r⟩ hk hl
    have e : (0 : Int) + (k : Int) - (-(q : Int)) = ((k + q : Nat) : Int) := by omega
    simp only [Int.zero_add] at e ⊢
    simp only [idx_tab (show k < n by omega), ok_bind]
    rw [if_pos (by omega), e]
    simp only [idx_tab (show k + q < n by omega), ok_bind]
    rw [setAt_nat (by simp at hl; omega)]
    exact ⟨_, rfl, by simpa using hl⟩
  · rintro ⟨s, r⟩ hl
    simp only [Int.zero_add]
    simp only [idx_tab (show n - q < n by omega), ok_bind]
    rw [if_pos (by omega), idx_tab_ge (by omega)]
    rfl

theorem Sum_neg {p : Int} (hp : p < 0) (n : Nat) (x : Nat → F) (hn : 0 < n) :
    Sum p (tab n x) = .error .index := by
  simp only [Sum, tab_length, mk_nat, ok_bind]
  obtain ⟨q, rfl⟩ : ∃ q : Nat, p = -(q : Int) := ⟨p.natAbs, by omega⟩
  unfold goFor
  have e0 : ((n : Int) - 0).toNat = n := by omega
  rw [e0, goForFrom_inv_error (n - q) (by omega) (fun _ (s : F × List F) => s.2.length = n)
    (by simp)]
  · rfl
  · rintro k ⟨s, r⟩ hk hl
    have e : (0 : Int) + (k : Int) - (-(q : Int)) = ((k + q : Nat) : Int) := by omega
    simp only [Int.zero_add] at e ⊢
    simp only [idx_tab (show k < n by omega), ok_bind]
    rw [if_pos (by omega), e]
    simp only [idx_tab (show k + q < n by omega), ok_bind]
    rw [setAt_nat (by simp at hl; omega)]
    exact ⟨_, rfl, by simpa using hl⟩
  · rintro ⟨s, r⟩ hl
    simp only [Int.zero_add]
    simp only [idx_tab (show n - q < n by omega), ok_bind]
    rw [if_pos (by omega), idx_tab_ge (by omega)]
    rfl

/-! ## MA, Dev, Mean, Cum -/

/-- The accumulation `sum += x[j]` over `cnt` values from `lo`. -/
def accum (x : Nat → F) (lo : Nat) : Nat → F
  | 0 => fl 0
  | c + 1 => accum x lo c +. x (lo + c)

theorem goFor_accum {n lo hi : Nat} (x : Nat → F) (g : F → F) (hlh : lo ≤ hi) (hn : hi ≤ n) :
    (goFor (lo : Int) (hi : Int) (fl 0 : F) fun j sum => do
      let v ← idx (tab n x) j
      pure (sum +. g v)) = .ok (accum (fun i => g (x i)) lo (hi - lo)) := by
  rw [goFor_acc hlh (fun k => accum (fun i => g (x i)) lo (k - lo)) (by simp [accum])]
  intro k h1 h2
  simp only [idx_tab (show k < n by omega), ok_bind, pure_eq_ok]
  have : k + 1 - lo = (k - lo) + 1 := by omega
  rw [this, accum]
  have : lo + (k - lo) = k := by omega
  rw [this]

/-- Models utils/ta/ta.go:225-241 `MA`. -/
def MA (source : List F) (length : Int) : Go (List F) := do
  let n : Int := source.length
  let ma ← mk n (fl 0)
  if length ≤ 0 ∨ n < length then pure ma
  else
    goFor (length - 1) n ma fun i ma => do
      let sum ← goFor (i - length + 1) (i + 1) (fl 0 : F) fun j sum => do
        let v ← idx source j
        pure (sum +. v)
      setAt ma i (sum /. fl length)

/-- The value of `MA` at one position. -/
def maF (p : Nat) (x : Nat → F) (i : Nat) : F :=
  if p = 0 ∨ i + 1 < p then fl 0 else accum x (i + 1 - p) p /. fl p

theorem MA_tab (p n : Nat) (x : Nat → F) : MA (tab n x) p = .ok (tab n (maF p x)) := by
  simp only [MA, tab_length, mk_nat, ok_bind]
  by_cases h : p = 0 ∨ n < p
  · rw [if_pos (by omega), replicate_eq_tab]
    show Except.ok _ = _
    congr 1
    exact tab_ext fun i hi => by rw [maF, if_pos (by omega)]
  · rw [if_neg (by omega)]
    have e : (p : Int) - 1 = ((p - 1 : Nat) : Int) := by omega
    rw [e]
    refine goFor_fill_from₀ _ (fun j hj => by rw [maF, if_pos (by omega)]) fun k hk hk' => ?_
    have e1 : (k : Int) - (p : Int) + 1 = ((k + 1 - p : Nat) : Int) := by omega
    have e2 : (k : Int) + 1 = ((k + 1 : Nat) : Int) := by omega
    rw [e1, e2, goFor_accum x (fun v => v) (by omega) (by omega)]
    simp only [ok_bind]
    rw [setAt_filled hk']
    rw [maF, if_neg (by omega)]
    congr 2
    omega

/-- Models utils/ta/ta.go:1041-1067 `Dev`. -/
def Dev (source : List F) (length : Int) : Go (List F) := do
  let n : Int := source.length
  let md ← mk n (fl 0)
  if length ≤ 0 ∨ n < length then pure md
  else
    goFor (length - 1) n md fun i md => do
      let sum ← goFor (i - length + 1) (i + 1) (fl 0 : F) fun j sum => do
        let v ← idx source j
        pure (sum +. v)
      let ma := sum /. fl length
      let devSum ← goFor (i - length + 1) (i + 1) (fl 0 : F) fun j devSum => do
        let v ← idx source j
        pure (devSum +. abs (v -. ma))
      setAt md i (devSum /. fl length)

/-- The value of `Dev` at one position. -/
def devF (p : Nat) (x : Nat → F) (i : Nat) : F :=
  if p = 0 ∨ i + 1 < p then fl 0
  else accum (fun j => abs (x j -. accum x (i + 1 - p) p /. fl p)) (i + 1 - p) p /. fl p

theorem Dev_tab (p n : Nat) (x : Nat → F) : Dev (tab n x) p = .ok (tab n (devF p x)) := by
  simp only [Dev, tab_length, mk_nat, ok_bind]
  by_cases h : p = 0 ∨ n < p
  · rw [if_pos (by omega), replicate_eq_tab]
    show Except.ok _ = _
    congr 1
    exact tab_ext fun i hi => by rw [devF, if_pos (by omega)]
  · rw [if_neg (by omega)]
    have e : (p : Int) - 1 = ((p - 1 : Nat) : Int) := by omega
    rw [e]
    refine goFor_fill_from₀ _ (fun j hj => by rw [devF, if_pos (by omega)]) fun k hk hk' => ?_
    have e1 : (k : Int) - (p : Int) + 1 = ((k + 1 - p : Nat) : Int) := by omega
    have e2 : (k : Int) + 1 = ((k + 1 : Nat) : Int) := by omega
    rw [e1, e2, goFor_accum x (fun v => v) (by omega) (by omega)]
    simp only [ok_bind]
    rw [goFor_accum x (fun v => abs (v -. _)) (by omega) (by omega)]
    simp only [ok_bind]
    rw [setAt_filled hk']
    rw [devF, if_neg (by omega)]
    have : k + 1 - (k + 1 - p) = p := by omega
    rw [this]

/-- Models utils/ta/ta.go:383-393 `MeanDeviation`. -/
def MeanDeviation (prices : List F) (period : Int) (ma : List F) : Go (List F) := do
  let md ← mk prices.length (fl 0)
  goFor (period - 1) prices.length md fun i md => do
    let sum ← goFor (i - period + 1) (i + 1) (fl 0 : F) fun j sum => do
      let v ← idx prices j
      let m ← idx ma i
      pure (sum +. abs (v -. m))
    setAt md i (sum /. fl period)

/-- The value of `MeanDeviation` at one position. -/
def meanDevF (p : Nat) (x m : Nat → F) (i : Nat) : F :=
  if i + 1 < p then fl 0 else accum (fun j => abs (x j -. m i)) (i + 1 - p) p /. fl p

theorem MeanDeviation_tab (p n : Nat) (hp : 0 < p) (x m : Nat → F) :
    MeanDeviation (tab n x) p (tab n m) = .ok (tab n (meanDevF p x m)) := by
  simp only [MeanDeviation, tab_length, mk_nat, ok_bind]
  have e : (p : Int) - 1 = ((p - 1 : Nat) : Int) := by omega
  rw [e]
  refine goFor_fill_from₀ _ (fun j hj => by rw [meanDevF, if_pos (by omega)]) fun k hk hk' => ?_
  have e1 : (k : Int) - (p : Int) + 1 = ((k + 1 - p : Nat) : Int) := by omega
  have e2 : (k : Int) + 1 = ((k + 1 : Nat) : Int) := by omega
  simp only [e1, e2, idx_tab hk', ok_bind]
  rw [goFor_accum x (fun v => abs (v -. m k)) (by omega) (by omega)]
  simp only [ok_bind]
  rw [setAt_filled hk']
  rw [meanDevF, if_neg (by omega)]
  have : k + 1 - (k + 1 - p) = p := by omega
  rw [this]

/-- Models utils/ta/ta.go:396-412 `CCI`. -/
def CCI (hlc3 : List F) (period smaPeriod : Int) : Go (List F) := do
  let ccis ← mk hlc3.length (fl 0)
  let ma ← Sma smaPeriod hlc3
  let md ← MeanDeviation hlc3 period ma
  goFor (period - 1) hlc3.length ccis fun i ccis => do
    let typicalPrice ← idx hlc3 i
    let m ← idx ma i
    let d ← idx md i
    setAt ccis i ((typicalPrice -. m) /. (lit (15 / 1000) *. d))

/-- The value of `CCI` at one position. -/
def cciF (p sp : Nat) (x : Nat → F) (i : Nat) : F :=
  if i + 1 < p then fl 0
  else (x i -. smaF sp x i) /. (lit (15 / 1000) *. meanDevF p x (smaF sp x) i)

theorem CCI_tab (p sp n : Nat) (hp : 0 < p) (x : Nat → F) :
    CCI (tab n x) p sp = .ok (tab n (cciF p sp x)) := by
  simp only [CCI, tab_length, mk_nat, ok_bind, Sma_tab, MeanDeviation_tab p n hp]
  have e : (p : Int) - 1 = ((p - 1 : Nat) : Int) := by omega
  rw [e]
  refine goFor_fill_from₀ _ (fun j hj => by rw [cciF, if_pos (by omega)]) fun k hk hk' => ?_
  simp only [idx_tab hk', ok_bind]
  rw [setAt_filled hk']
  rw [cciF, if_neg (by omega)]

/-- Models utils/ta/ta.go:415-435 `AiCoinCCI` (the parameter `factor` is unused there). -/
def AiCoinCCI (close : List F) (period : Int) (_factor : F) : Go (List F) := do
  let matp ← MA close period
  let md ← Dev close period
  let n : Int := close.length
  let cci ← mk n (fl 0)
  goFor 0 n cci fun i cci => do
    let d ← idx md i
    if d ==. fl 0 then setAt cci i (fl 0)
    else
      let c ← idx close i
      let m ← idx matp i
      setAt cci i ((c -. m) /. (lit (15 / 1000) *. d))

/-- The value of `AiCoinCCI` at one position. -/
def aiCciF (p : Nat) (x : Nat → F) (i : Nat) : F :=
  if devF p x i ==. fl 0 then fl 0 else (x i -. maF p x i) /. (lit (15 / 1000) *. devF p x i)

theorem AiCoinCCI_tab (p n : Nat) (x : Nat → F) (f : F) :
    AiCoinCCI (tab n x) p f = .ok (tab n (aiCciF p x)) := by
  simp only [AiCoinCCI, tab_length, mk_nat, ok_bind, MA_tab, Dev_tab]
  refine goFor_fill₀ _ fun k hk => ?_
  simp only [idx_tab hk, ok_bind]
  split
  · next h => rw [setAt_filled hk (by simp [aiCciF, h])]
  · next h => rw [setAt_filled hk (by simp [aiCciF, h])]

/-- Models utils/ta/ta.go:518-524 `Cum`. -/
def Cum (source : List F) : F := source.foldl (fun val v => val +. v) (fl 0)

/-- Models utils/ta/ta.go:964-970 `Mean`. -/
def Mean (values : List F) : F :=
  values.foldl (fun total v => total +. v) (fl 0) /. fl values.length

/-! ## Ema, Dema, Rma -/

/-- Models utils/ta/ta.go:323-339 `Ema`. -/
def Ema (period : Int) (values : List F) : Go (List F) := do
  let result ← mk values.length (fl 0)
  goFor 0 values.length result fun i r => do
    let value ← idx values i
    if i > 0 then
      let prev ← idx r (i - 1)
      setAt r i ((fl 2 *. value +. fl (period - 1) *. prev) /. fl (period + 1))
    else setAt r i value

/-- The value of `Ema` at one position. -/
def emaF (p : Int) (x : Nat → F) : Nat → F
  | 0 => x 0
  | k + 1 => (fl 2 *. x (k + 1) +. fl (p - 1) *. emaF p x k) /. fl (p + 1)

theorem Ema_tab (p : Int) (n : Nat) (x : Nat → F) : Ema p (tab n x) = .ok (tab n (emaF p x)) := by
  simp only [Ema, tab_length, mk_nat, ok_bind]
  refine goFor_fill₀ _ fun k hk => ?_
  simp only [idx_tab hk, ok_bind]
  cases k with
  | zero => rw [if_neg (by simp)]; exact setAt_filled (f := emaF p x) hk rfl
  | succ k =>
    have e : ((k + 1 : Nat) : Int) - 1 = (k : Int) := by omega
    rw [if_pos (by omega), e, idx_filled (by omega) (by omega)]
    simp only [ok_bind]
    exact setAt_filled (f := emaF p x) hk rfl

/-- Models utils/ta/ta.go:313-321 `Dema`. -/
def Dema (period : Int) (values : List F) : Go (List F) := do
  let ema1 ← Ema period values
  let ema2 ← Ema period ema1
  let d ← MultiplyBy ema1 (fl 2)
  Subtract d ema2

/-- The value of `Dema` at one position. -/
def demaF (p : Int) (x : Nat → F) (i : Nat) : F :=
  subF (emaF p x i *. fl 2) (emaF p (emaF p x) i)

theorem Dema_tab (p : Int) (n : Nat) (x : Nat → F) :
    Dema p (tab n x) = .ok (tab n (demaF p x)) := by
  simp only [Dema, Ema_tab, MultiplyBy_tab, Subtract_tab, ok_bind, Nat.le_refl, if_true]
  rfl

/-- Models utils/ta/ta.go:291-311 `Rma`. -/
def Rma (period : Int) (values : List F) : Go (List F) := do
  let result ← mk values.length (fl 0)
  let (_, result) ← goFor 0 values.length ((fl 0 : F), result) fun i (sum, r) => do
    let value ← idx values i
    if i < 1 then pure (sum, r)
    else if i < period then
      let sum := sum +. value
      let r ← setAt r i (sum /. fl (i + 1))
      pure (sum, r)
    else
      let prev ← idx r (i - 1)
      let sum := (prev *. fl (period - 1)) +. value
      let r ← setAt r i (sum /. fl period)
      pure (sum, r)
  pure result

/-- `sum` and `result[i]` of `Rma` after index `i`. -/
def rmaS (p : Int) (x : Nat → F) : Nat → F × F
  | 0 => (fl 0, fl 0)
  | k + 1 =>
    if ((k + 1 : Nat) : Int) < p then
      let s := (rmaS p x k).1 +. x (k + 1)
      (s, s /. fl (((k + 1 : Nat) : Int) + 1))
    else
      let s := ((rmaS p x k).2 *. fl (p - 1)) +. x (k + 1)
      (s, s /. fl p)

/-- The value of `Rma` at one position. -/
def rmaF (p : Int) (x : Nat → F) (i : Nat) : F := (rmaS p x i).2

theorem Rma_tab (p : Int) (n : Nat) (x : Nat → F) : Rma p (tab n x) = .ok (tab n (rmaF p x)) := by
  simp only [Rma, tab_length, mk_nat, ok_bind]
  rw [goFor_fill (s := fl 0) (rmaF p x) (fun k => match k with | 0 => fl 0 | k + 1 => (rmaS p x k).1) rfl]
  · rfl
  · intro k hk
    simp only [idx_tab hk, ok_bind]
    cases k with
    | zero =>
      rw [if_pos (by simp)]
      simp only [pure_eq_ok, rmaS]
      have : filled n 0 (rmaF p x) (fl 0) = filled n (0 + 1) (rmaF p x) (fl 0) :=
        tab_ext fun i _ => by cases i <;> simp [rmaF, rmaS]
      rw [this]
    | succ k =>
      rw [if_neg (by omega)]
      by_cases h : ((k + 1 : Nat) : Int) < p
      · rw [if_pos h]
        rw [setAt_filled (f := rmaF p x) hk (by rw [rmaF, rmaS, if_pos h])]
        simp only [ok_bind, pure_eq_ok]
        rw [rmaS, if_pos h]
      · have e : ((k + 1 : Nat) : Int) - 1 = (k : Int) := by omega
        rw [if_neg h, e, idx_filled (by omega) (by omega)]
        simp only [ok_bind]
        rw [setAt_filled (f := rmaF p x) hk (by rw [rmaF, rmaF, rmaS, if_neg h])]
        simp only [ok_bind, pure_eq_ok]
        rw [rmaS, if_neg h, rmaF]

end Verif.Ta
