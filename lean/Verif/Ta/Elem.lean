import Verif.Go.Num

/-!
# Element-wise helpers of `utils/ta/ta.go`

Every model function is followed by its closed form on tables: what it returns on the slice
`[x 0, .., x (n-1)]`. The closed forms use no law of arithmetic.
-/

namespace Verif.Ta
open GoFloat

variable {F : Type} [GoFloat F]

/-- Models utils/ta/ta.go:527-535 `MultiplyBy`. -/
def MultiplyBy (values : List F) (multiplier : F) : Go (List F) := do
  let result ← mk values.length (fl 0)
  goFor 0 values.length result fun i r => do
    let value ← idx values i
    setAt r i (value *. multiplier)

/-- Models utils/ta/ta.go:538-547 `Multiply`. -/
def Multiply (values1 values2 : List F) : Go (List F) := do
  let result ← mk values1.length (fl 0)
  goFor 0 result.length result fun i r => do
    let a ← idx values1 i
    let b ← idx values2 i
    setAt r i (a *. b)

/-- Models utils/ta/ta.go:550-552 `DivideBy`. -/
def DivideBy (values : List F) (per : F) : Go (List F) := MultiplyBy values (fl 1 /. per)

/-- Models utils/ta/ta.go:555-568 `Divide`. -/
def Divide (values1 values2 : List F) : Go (List F) := do
  let result ← mk values1.length (fl 0)
  goFor 0 result.length result fun i r => do
    let a ← idx values1 i
    let b ← idx values2 i
    let val := a /. b
    let val := if isNaN val || isInf val then fl 0 else val
    setAt r i val

/-- Models utils/ta/ta.go:571-579 `Add`. -/
def Add (values1 values2 : List F) : Go (List F) := do
  let result ← mk values1.length (fl 0)
  goFor 0 result.length result fun i r => do
    let a ← idx values1 i
    let b ← idx values2 i
    setAt r i (a +. b)

/-- Models utils/ta/ta.go:582-590 `AddBy`. -/
def AddBy (values : List F) (addition : F) : Go (List F) := do
  let result ← mk values.length (fl 0)
  goFor 0 result.length result fun i r => do
    let a ← idx values i
    setAt r i (a +. addition)

/-- Models utils/ta/ta.go:593-597 `Subtract`. -/
def Subtract (values1 values2 : List F) : Go (List F) := do
  let subtract ← MultiplyBy values2 (fl (-1))
  Add values1 subtract

/-- Models utils/ta/ta.go:617-629 `ShiftRightAndFillBy`. -/
def ShiftRightAndFillBy (period : Int) (fill : F) (values : List F) : Go (List F) := do
  let result ← mk values.length (fl 0)
  goFor 0 result.length result fun i r => do
    if i < period then setAt r i fill
    else
      let v ← idx values (i - period)
      setAt r i v

/-- Models utils/ta/ta.go:632-634 `ShiftRight`. -/
def ShiftRight (period : Int) (values : List F) : Go (List F) :=
  ShiftRightAndFillBy period (fl 0) values

/-- Models utils/ta/ta.go:600-603 `Diff`. -/
def Diff (values : List F) (before : Int) : Go (List F) := do
  let s ← ShiftRight before values
  Subtract values s

/-- Models utils/ta/ta.go:606-614 `PercentDiff`. -/
def PercentDiff (values : List F) (before : Int) : Go (List F) := do
  let result ← mk values.length (fl 0)
  goFor before values.length result fun i r => do
    let a ← idx values i
    let b ← idx values (i - before)
    let c ← idx values (i - before)
    setAt r i ((a -. b) /. c)

/-- Models utils/ta/ta.go:682-694 `ExtractSign`. -/
def ExtractSign (values : List F) : Go (List F) := do
  let result ← mk values.length (fl 0)
  goFor 0 result.length result fun i r => do
    let v ← idx values i
    if v >=. fl 0 then setAt r i (fl 1) else setAt r i (fl (-1))

/-- Models utils/ta/ta.go:697-709 `KeepPositives`. -/
def KeepPositives (values : List F) : Go (List F) := do
  let result ← mk values.length (fl 0)
  goFor 0 values.length result fun i r => do
    let v ← idx values i
    if v >. fl 0 then setAt r i v else setAt r i (fl 0)

/-- Models utils/ta/ta.go:712-724 `KeepNegatives`. -/
def KeepNegatives (values : List F) : Go (List F) := do
  let result ← mk values.length (fl 0)
  goFor 0 values.length result fun i r => do
    let v ← idx values i
    if v <. fl 0 then setAt r i v else setAt r i (fl 0)

/-- Models utils/ta/ta.go:953-961 `Abs`. -/
def Abs (values : List F) : Go (List F) := do
  let result ← mk values.length (fl 0)
  goFor 0 values.length result fun i r => do
    let v ← idx values i
    setAt r i (abs v)

/-- Models utils/ta/ta.go:1104-1111 `Nz`. -/
def Nz (vals replacement : F) : F := if isNaN vals then replacement else vals

/-- Models utils/ta/ta.go:1120-1122 `CrossOver` (`&&` short-circuits, so the second index is only
evaluated when the first comparison holds). -/
def CrossOver (values : List F) (source : F) : Go Bool := do
  let a ← idx values (values.length - 1)
  if a >. source then
    let b ← idx values (values.length - 2)
    pure (b <. source)
  else pure false

/-- Models utils/ta/ta.go:1131-1133 `CrossUnder`. -/
def CrossUnder (values : List F) (source : F) : Go Bool := do
  let a ← idx values (values.length - 1)
  if a <. source then
    let b ← idx values (values.length - 2)
    pure (b >. source)
  else pure false

/-! ## Closed forms -/

theorem MultiplyBy_tab (n : Nat) (x : Nat → F) (m : F) :
    MultiplyBy (tab n x) m = .ok (tab n fun i => x i *. m) := by
  simp only [MultiplyBy, tab_length, mk_nat, ok_bind]
  exact goFor_fill₀ _ fun k hk => by
    simp only [idx_tab hk, ok_bind, setAt_filled hk rfl]

/-- Closed form shared by the two-slice loops. -/
theorem binop_tab (op : F → F → F) {n m : Nat} (x y : Nat → F) :
    (goFor 0 (n : Int) (List.replicate n (fl 0)) fun i r => do
      let a ← idx (tab n x) i
      let b ← idx (tab m y) i
      setAt r i (op a b)) =
    if n ≤ m then .ok (tab n fun i => op (x i) (y i)) else .error .index := by
  split
  · next h =>
    exact goFor_fill₀ _ fun k hk => by
      simp only [idx_tab hk, idx_tab (Nat.lt_of_lt_of_le hk h), ok_bind, setAt_filled hk rfl]
  · next h =>
    refine goFor_fill_error₀ (m := m) (fun i => op (x i) (y i)) (by omega) (fun k hk => ?_) ?_
    · simp only [idx_tab (show k < n by omega), idx_tab hk, ok_bind,
        setAt_filled (show k < n by omega) rfl]
    · simp only [idx_tab (show m < n by omega), idx_tab_ge (Int.le_refl _), ok_bind, error_bind]

theorem Multiply_tab (n m : Nat) (x y : Nat → F) :
    Multiply (tab n x) (tab m y) =
      if n ≤ m then .ok (tab n fun i => x i *. y i) else .error .index := by
  simp only [Multiply, tab_length, mk_nat, ok_bind, List.length_replicate]
  exact binop_tab (· *. ·) x y

theorem Add_tab (n m : Nat) (x y : Nat → F) :
    Add (tab n x) (tab m y) =
      if n ≤ m then .ok (tab n fun i => x i +. y i) else .error .index := by
  simp only [Add, tab_length, mk_nat, ok_bind, List.length_replicate]
  exact binop_tab (· +. ·) x y

/-- What `Divide` puts at one position. -/
def safeDiv (a b : F) : F :=
  if isNaN (a /. b) || isInf (a /. b) then fl 0 else a /. b

theorem Divide_tab (n m : Nat) (x y : Nat → F) :
    Divide (tab n x) (tab m y) =
      if n ≤ m then .ok (tab n fun i => safeDiv (x i) (y i)) else .error .index := by
  simp only [Divide, tab_length, mk_nat, ok_bind, List.length_replicate]
  exact binop_tab safeDiv x y

/-- What `Subtract` puts at one position. -/
def subF (a b : F) : F := a +. (b *. fl (-1))

theorem Subtract_tab (n m : Nat) (x y : Nat → F) :
    Subtract (tab n x) (tab m y) =
      if n ≤ m then .ok (tab n fun i => subF (x i) (y i)) else .error .index := by
  simp only [Subtract, MultiplyBy_tab, ok_bind, Add_tab]; rfl

theorem DivideBy_tab (n : Nat) (x : Nat → F) (m : F) :
    DivideBy (tab n x) m = .ok (tab n fun i => x i *. (fl 1 /. m)) := MultiplyBy_tab _ _ _

theorem AddBy_tab (n : Nat) (x : Nat → F) (m : F) :
    AddBy (tab n x) m = .ok (tab n fun i => x i +. m) := by
  simp only [AddBy, tab_length, mk_nat, ok_bind, List.length_replicate]
  exact goFor_fill₀ _ fun k hk => by
    simp only [idx_tab hk, ok_bind, setAt_filled hk rfl]

/-- The value of a right shift at one position. -/
def shiftF (p : Nat) (fill : F) (x : Nat → F) (i : Nat) : F := if i < p then fill else x (i - p)

theorem ShiftRightAndFillBy_tab (p n : Nat) (fill : F) (x : Nat → F) :
    ShiftRightAndFillBy p fill (tab n x) = .ok (tab n (shiftF p fill x)) := by
  simp only [ShiftRightAndFillBy, tab_length, mk_nat, ok_bind, List.length_replicate]
  refine goFor_fill₀ _ fun k hk => ?_
  by_cases h : k < p
  · rw [if_pos (by omega), setAt_filled hk (by simp [shiftF, h])]
  · have e : (k : Int) - (p : Int) = ((k - p : Nat) : Int) := by omega
    rw [if_neg (by omega), e]
    simp only [idx_tab (show k - p < n by omega), ok_bind]
    rw [setAt_filled hk (by simp [shiftF, h])]

/-- A negative shift panics on every non-empty series. -/
theorem ShiftRightAndFillBy_neg {p : Int} (hp : p < 0) (fill : F) (n : Nat) (x : Nat → F)
    (hn : 0 < n) : ShiftRightAndFillBy p fill (tab n x) = .error .index := by
  simp only [ShiftRightAndFillBy, tab_length, mk_nat, ok_bind, List.length_replicate]
  obtain ⟨q, rfl⟩ : ∃ q : Nat, p = -(q : Int) := ⟨p.natAbs, by omega⟩
  refine goFor_fill_error₀ (m := n - q) (fun i => x (i + q)) (by omega) (fun k hk => ?_) ?_
  · have e : (k : Int) - (-(q : Int)) = ((k + q : Nat) : Int) := by omega
    rw [if_neg (by omega), e]
    simp only [idx_tab (show k + q < n by omega), ok_bind]
    rw [setAt_filled (by omega) rfl]
  · rw [if_neg (by omega), idx_tab_ge (by omega)]; rfl

theorem ShiftRight_tab (p n : Nat) (x : Nat → F) :
    ShiftRight p (tab n x) = .ok (tab n (shiftF p (fl 0) x)) := ShiftRightAndFillBy_tab _ _ _ _

theorem Diff_tab (p n : Nat) (x : Nat → F) :
    Diff (tab n x) p = .ok (tab n fun i => subF (x i) (shiftF p (fl 0) x i)) := by
  simp only [Diff, ShiftRight_tab, ok_bind, Subtract_tab, Nat.le_refl, if_true]

/-- The value of `PercentDiff` at one position. -/
def percentDiffF (p : Nat) (x : Nat → F) (i : Nat) : F :=
  if i < p then fl 0 else (x i -. x (i - p)) /. x (i - p)

theorem PercentDiff_tab (p n : Nat) (x : Nat → F) :
    PercentDiff (tab n x) p = .ok (tab n (percentDiffF p x)) := by
  simp only [PercentDiff, tab_length, mk_nat, ok_bind]
  refine goFor_fill_from₀ _ (fun j hj => by simp [percentDiffF, hj]) fun k hk hk' => ?_
  have e : (k : Int) - (p : Int) = ((k - p : Nat) : Int) := by omega
  rw [e]
  simp only [idx_tab hk', idx_tab (show k - p < n by omega), ok_bind]
  rw [setAt_filled hk' (by simp [percentDiffF, show ¬ k < p by omega])]

theorem ExtractSign_tab (n : Nat) (x : Nat → F) :
    ExtractSign (tab n x) = .ok (tab n fun i => if x i >=. fl 0 then fl 1 else fl (-1)) := by
  simp only [ExtractSign, tab_length, mk_nat, ok_bind, List.length_replicate]
  refine goFor_fill₀ _ fun k hk => ?_
  simp only [idx_tab hk, ok_bind]
  split
  · next h => rw [setAt_filled hk (by simp [h])]
  · next h => rw [setAt_filled hk (by simp [h])]

theorem KeepPositives_tab (n : Nat) (x : Nat → F) :
    KeepPositives (tab n x) = .ok (tab n fun i => if x i >. fl 0 then x i else fl 0) := by
  simp only [KeepPositives, tab_length, mk_nat, ok_bind]
  refine goFor_fill₀ _ fun k hk => ?_
  simp only [idx_tab hk, ok_bind]
  split
  · next h => rw [setAt_filled hk (by simp [h])]
  · next h => rw [setAt_filled hk (by simp [h])]

theorem KeepNegatives_tab (n : Nat) (x : Nat → F) :
    KeepNegatives (tab n x) = .ok (tab n fun i => if x i <. fl 0 then x i else fl 0) := by
  simp only [KeepNegatives, tab_length, mk_nat, ok_bind]
  refine goFor_fill₀ _ fun k hk => ?_
  simp only [idx_tab hk, ok_bind]
  split
  · next h => rw [setAt_filled hk (by simp [h])]
  · next h => rw [setAt_filled hk (by simp [h])]

theorem Abs_tab (n : Nat) (x : Nat → F) :
    Abs (tab n x) = .ok (tab n fun i => abs (x i)) := by
  simp only [Abs, tab_length, mk_nat, ok_bind]
  exact goFor_fill₀ _ fun k hk => by
    simp only [idx_tab hk, ok_bind, setAt_filled hk rfl]

end Verif.Ta
