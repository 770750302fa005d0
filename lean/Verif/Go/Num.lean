import Mathlib.Algebra.Order.Field.Basic
import Mathlib.Data.Rat.Cast.Defs
import Mathlib.Order.WithBot
import Mathlib.Tactic.Ring
import Mathlib.Tactic.Linarith
import Mathlib.Tactic.Positivity
import Mathlib.Tactic.NormNum
import Verif.Go.Basic

/-!
# Model of `float64`

`GoFloat F` is the interface through which every model function touches floating-point numbers.
It has **no laws**, so a theorem proved for every `F` with `[GoFloat F]` also holds for IEEE 754
binary64. `XF K` is an exact interpretation: an ordered field with `+Inf`, `-Inf` and `NaN`.
-/

namespace Verif

/-- The float64 operations used by the library (Go language operators and package `math`). -/
class GoFloat (F : Type _) where
  /-- `a + b` -/
  add : F → F → F
  /-- `a - b` -/
  sub : F → F → F
  /-- `a * b` -/
  mul : F → F → F
  /-- `a / b` -/
  div : F → F → F
  /-- `a < b` (false when either side is NaN) -/
  lt : F → F → Bool
  /-- `a <= b` -/
  le : F → F → Bool
  /-- `a == b` -/
  eq : F → F → Bool
  /-- `float64(n)` for an `int` -/
  ofInt : Int → F
  /-- a decimal (constant) literal such as `0.015` -/
  lit : Rat → F
  /-- `math.IsNaN` -/
  isNaN : F → Bool
  /-- `math.IsInf(x, 1)` -/
  isPosInf : F → Bool
  /-- `math.IsInf(x, -1)` -/
  isNegInf : F → Bool
  /-- `math.Abs` -/
  abs : F → F
  /-- `math.Max` -/
  max : F → F → F
  /-- `math.Min` -/
  min : F → F → F

@[inherit_doc] infixl:65 " +. " => GoFloat.add
@[inherit_doc] infixl:65 " -. " => GoFloat.sub
@[inherit_doc] infixl:70 " *. " => GoFloat.mul
@[inherit_doc] infixl:70 " /. " => GoFloat.div
@[inherit_doc] infix:50 " <. " => GoFloat.lt
@[inherit_doc] infix:50 " <=. " => GoFloat.le
@[inherit_doc] infix:50 " ==. " => GoFloat.eq

/-- `a > b` is `b < a` in IEEE arithmetic. -/
abbrev GoFloat.gt [GoFloat F] (a b : F) : Bool := GoFloat.lt b a
/-- `a >= b` is `b <= a` in IEEE arithmetic. -/
abbrev GoFloat.ge [GoFloat F] (a b : F) : Bool := GoFloat.le b a
@[inherit_doc] infix:50 " >. " => GoFloat.gt
@[inherit_doc] infix:50 " >=. " => GoFloat.ge

/-- `math.IsInf(x, 0)`. -/
def GoFloat.isInf [GoFloat F] (x : F) : Bool := GoFloat.isPosInf x || GoFloat.isNegInf x

/-- An integer constant used as a float64 (`0`, `1`, `100`, ...). -/
abbrev fl [GoFloat F] (n : Int) : F := GoFloat.ofInt n

/-- The transcendental functions of package `math` used by the library. No laws either. -/
class GoMath (F : Type) extends GoFloat F where
  /-- `math.Sqrt` -/
  sqrt : F → F
  /-- `math.Atan` -/
  atan : F → F
  /-- `math.Pow` -/
  pow : F → F → F
  /-- `math.Round` (half away from zero) -/
  round : F → F
  /-- the constant `180.0 / math.Pi` -/
  degPerRad : F

/-- Exact numbers with the IEEE special values. Simplification: no rounding, no overflow, a single
zero. -/
inductive XF (K : Type _) where
  | fin (x : K)
  | pinf
  | ninf
  | nan
  deriving DecidableEq, Repr

namespace XF

variable {K : Type _}

section ops
variable [Field K] [LinearOrder K]

/-- IEEE addition on special values. -/
def add : XF K → XF K → XF K
  | fin a, fin b => fin (a + b)
  | nan, _ => nan
  | _, nan => nan
  | pinf, ninf => nan
  | ninf, pinf => nan
  | pinf, _ => pinf
  | _, pinf => pinf
  | ninf, _ => ninf
  | _, ninf => ninf

/-- Negation. -/
def neg : XF K → XF K
  | fin a => fin (-a)
  | pinf => ninf
  | ninf => pinf
  | nan => nan

/-- The infinity with the sign of a number; `nan` for zero (used for `Inf * x`). -/
def infSign (x : K) : XF K := if 0 < x then pinf else if x < 0 then ninf else nan

/-- IEEE multiplication on special values. -/
def mul : XF K → XF K → XF K
  | fin a, fin b => fin (a * b)
  | nan, _ => nan
  | _, nan => nan
  | pinf, pinf => pinf
  | pinf, ninf => ninf
  | ninf, pinf => ninf
  | ninf, ninf => pinf
  | pinf, fin a => infSign a
  | ninf, fin a => infSign (-a)
  | fin a, pinf => infSign a
  | fin a, ninf => infSign (-a)

/-- IEEE division on special values; `x/0` is `±Inf` by the sign of `x`, `0/0` is NaN. -/
def div : XF K → XF K → XF K
  | fin a, fin b => if b = 0 then infSign a else fin (a / b)
  | nan, _ => nan
  | _, nan => nan
  | fin _, _ => fin 0
  | pinf, fin b => if b < 0 then ninf else pinf
  | ninf, fin b => if b < 0 then pinf else ninf
  | _, _ => nan

/-- `a < b`. -/
def lt : XF K → XF K → Bool
  | nan, _ => false
  | _, nan => false
  | fin a, fin b => decide (a < b)
  | ninf, ninf => false
  | ninf, _ => true
  | _, ninf => false
  | pinf, _ => false
  | _, pinf => true

/-- `a == b`. -/
def eq : XF K → XF K → Bool
  | fin a, fin b => decide (a = b)
  | pinf, pinf => true
  | ninf, ninf => true
  | _, _ => false

/-- `math.Max`: `+Inf` wins over NaN, NaN wins over the rest. -/
def max : XF K → XF K → XF K
  | pinf, _ => pinf
  | _, pinf => pinf
  | nan, _ => nan
  | _, nan => nan
  | ninf, b => b
  | a, ninf => a
  | fin a, fin b => fin (Max.max a b)

/-- `math.Min`: `-Inf` wins over NaN, NaN wins over the rest. -/
def min : XF K → XF K → XF K
  | ninf, _ => ninf
  | _, ninf => ninf
  | nan, _ => nan
  | _, nan => nan
  | pinf, b => b
  | a, pinf => a
  | fin a, fin b => fin (Min.min a b)

/-- `math.Abs`. -/
def abs : XF K → XF K
  | fin a => fin (if a < 0 then -a else a)
  | nan => nan
  | _ => pinf

instance : GoFloat (XF K) where
  add := add
  sub a b := add a (neg b)
  mul := mul
  div := div
  lt := lt
  le a b := lt a b || eq a b
  eq := eq
  ofInt n := fin (n : K)
  lit q := fin (q : K)
  isNaN x := match x with | nan => true | _ => false
  isPosInf x := match x with | pinf => true | _ => false
  isNegInf x := match x with | ninf => true | _ => false
  abs := abs
  max := max
  min := min

/-! ### Finite values compute as in the field -/

@[simp] theorem add_fin (a b : K) : (fin a +. fin b : XF K) = fin (a + b) := rfl
@[simp] theorem sub_fin (a b : K) : (fin a -. fin b : XF K) = fin (a - b) := by
  show fin (a + -b) = _; rw [sub_eq_add_neg]
@[simp] theorem mul_fin (a b : K) : (fin a *. fin b : XF K) = fin (a * b) := rfl
theorem div_fin_eq (a b : K) :
    (fin a /. fin b : XF K) = if b = 0 then infSign a else fin (a / b) := rfl
theorem div_fin {a b : K} (h : b ≠ 0) : (fin a /. fin b : XF K) = fin (a / b) := by
  simp [div_fin_eq, h]
@[simp] theorem lt_fin (a b : K) : (fin a <. fin b : Bool) = decide (a < b) := rfl
@[simp] theorem eq_fin (a b : K) : (fin a ==. fin b : Bool) = decide (a = b) := rfl
@[simp] theorem le_fin (a b : K) : (fin a <=. fin b : Bool) = decide (a ≤ b) := by
  show (decide (a < b) || decide (a = b)) = _
  rw [← Bool.decide_or]; congr 1; exact propext (le_iff_lt_or_eq (a := a) (b := b)).symm
@[simp] theorem ofInt_fin (n : Int) : (GoFloat.ofInt n : XF K) = fin (n : K) := rfl
theorem fl_fin (n : Int) : (fl n : XF K) = fin (n : K) := rfl
theorem fl_nat (n : Nat) : (fl (n : Int) : XF K) = fin (n : K) := by
  show fin (((n : Int)) : K) = _; rw [Int.cast_natCast]
@[simp] theorem lit_fin (q : Rat) : (GoFloat.lit q : XF K) = fin (q : K) := rfl
@[simp] theorem isNaN_fin (a : K) : GoFloat.isNaN (fin a) = false := rfl
@[simp] theorem isNaN_nan : GoFloat.isNaN (nan : XF K) = true := rfl
@[simp] theorem isNaN_pinf : GoFloat.isNaN (pinf : XF K) = false := rfl
@[simp] theorem isNaN_ninf : GoFloat.isNaN (ninf : XF K) = false := rfl
@[simp] theorem isPosInf_fin (a : K) : GoFloat.isPosInf (fin a) = false := rfl
@[simp] theorem isNegInf_fin (a : K) : GoFloat.isNegInf (fin a) = false := rfl
@[simp] theorem isInf_fin (a : K) : GoFloat.isInf (fin a) = false := rfl
@[simp] theorem isInf_nan : GoFloat.isInf (nan : XF K) = false := rfl
@[simp] theorem isInf_pinf : GoFloat.isInf (pinf : XF K) = true := rfl
@[simp] theorem isInf_ninf : GoFloat.isInf (ninf : XF K) = true := rfl
@[simp] theorem isPosInf_nan : GoFloat.isPosInf (nan : XF K) = false := rfl
@[simp] theorem isNegInf_nan : GoFloat.isNegInf (nan : XF K) = false := rfl
@[simp] theorem isPosInf_pinf : GoFloat.isPosInf (pinf : XF K) = true := rfl
@[simp] theorem isNegInf_pinf : GoFloat.isNegInf (pinf : XF K) = false := rfl
@[simp] theorem isPosInf_ninf : GoFloat.isPosInf (ninf : XF K) = false := rfl
@[simp] theorem isNegInf_ninf : GoFloat.isNegInf (ninf : XF K) = true := rfl
@[simp] theorem max_fin (a b : K) : GoFloat.max (fin a) (fin b) = fin (Max.max a b) := rfl
@[simp] theorem min_fin (a b : K) : GoFloat.min (fin a) (fin b) = fin (Min.min a b) := rfl
omit [Field K] [LinearOrder K] in
@[simp] theorem fin_inj {a b : K} : (fin a = fin b) ↔ a = b := ⟨fun h => by cases h; rfl, fun h => h ▸ rfl⟩

theorem abs_fin' [IsStrictOrderedRing K] (a : K) :
    GoFloat.abs (fin a) = (fin |a| : XF K) := by
  show fin (if a < 0 then -a else a) = _
  congr 1
  split
  · next h => exact (abs_of_neg h).symm
  · next h => exact (abs_of_nonneg (not_lt.mp h)).symm

end ops

/-- A value is finite. -/
def Finite (x : XF K) : Prop := ∃ a, x = fin a

end XF

/-- `<`, `<=` and `==` agree with a linear order on the values satisfying `good`. For float64
take `good = not NaN` and `key` = the extended real the float denotes (so `-0` and `+0` share a
key). -/
structure OrdKey (F : Type _) [GoFloat F] (L : Type _) [LinearOrder L] where
  /-- the values the order is about -/
  good : F → Prop
  /-- position of a value in the linear order -/
  key : F → L
  lt_iff : ∀ {a b}, good a → good b → ((a <. b) = true ↔ key a < key b)
  le_iff : ∀ {a b}, good a → good b → ((a <=. b) = true ↔ key a ≤ key b)
  eq_iff : ∀ {a b}, good a → good b → ((a ==. b) = true ↔ key a = key b)

namespace XF
variable {K : Type _} [Field K] [LinearOrder K]

/-- Extended-real position of a non-NaN value. -/
def toExt : XF K → WithBot (WithTop K)
  | fin a => ((a : WithTop K) : WithBot (WithTop K))
  | pinf => ((⊤ : WithTop K) : WithBot (WithTop K))
  | ninf => ⊥
  | nan => ⊥

/-- Comparisons on non-NaN exact numbers form a linear order. -/
def ordKey : OrdKey (XF K) (WithBot (WithTop K)) where
  good x := x ≠ nan
  key := toExt
  lt_iff := by
    intro a b ha hb
    show XF.lt a b = true ↔ _
    cases a <;> cases b <;> simp_all [XF.lt, toExt]
    exact WithBot.coe_lt_coe.mpr (WithTop.coe_lt_top _)
  le_iff := by
    intro a b ha hb
    show (XF.lt a b || XF.eq a b) = true ↔ _
    cases a <;> cases b <;> simp_all [XF.lt, XF.eq, toExt, le_iff_lt_or_eq]
    exact WithBot.coe_lt_coe.mpr (WithTop.coe_lt_top _)
  eq_iff := by
    intro a b ha hb
    show XF.eq a b = true ↔ _
    cases a <;> cases b <;> simp_all [XF.eq, toExt]

end XF

end Verif
