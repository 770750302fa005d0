import Verif.Go.Math64

/-!
# Fused multiply-add

The Go specification ("Floating-point operators") lets a compiler compute `x*y + z` with a single rounding, also across
statements and through variables: `*p = x*y; r = *p + z` may be fused. The compilers for arm64, ppc64le, riscv64 and
s390x do so, the one for amd64 with default settings does not. `Fused c` is float64 arithmetic in which a product
remembers its factors, and `c` says for each sum or difference of a product whether it is fused; `c` sees how both
operands were computed. `fun _ _ => false` is plain float64 arithmetic, `fun _ _ => true` fuses wherever the specification
allows it. The programs are those of the other files: they are written for every `GoFloat`.

Simplification: two sums at different places of the program whose operands were computed in the same way are fused alike.
-/

namespace Verif
open GoFloat

namespace B64

/-- `x*y + z` with one rounding (IEEE 754 `fusedMultiplyAdd`, Go `math.FMA`). -/
def fma : B64 → B64 → B64 → B64
  | .fin s p _, .fin t q _, .fin u r _ => ofRat ((s ^^ t) && u) (signed s p * signed t q + signed u r)
  | .fin _ _ _, .fin _ _ _, z => z
  | x, y, z => add (mul x y) z

theorem val_fma {x y z : B64} {a b d : ℚ} (hx : x.val = .fin a) (hy : y.val = .fin b) (hz : z.val = .fin d) :
    (fma x y z).val = round64 (a * b + d) := by
  obtain ⟨s, p, hp, rfl, rfl⟩ := val_fin_iff.mp hx
  obtain ⟨t, q, hq, rfl, rfl⟩ := val_fin_iff.mp hy
  obtain ⟨u, r, hr, rfl, rfl⟩ := val_fin_iff.mp hz
  exact val_ofRat _ _

end B64

/-- How a number was computed; the name of an operation is a number. -/
inductive Hist where
  | input (n : Nat)
  | const (q : Rat)
  | unary (op : Nat) (x : Hist)
  | binary (op : Nat) (x y : Hist)

/-- What a compiler fuses: the product with the first history, into its sum with the number with the second one. -/
abbrev Choice := Hist → Hist → Bool

/-- A float64, with its factors if it is a product that need not have been rounded yet. -/
structure Fused (c : Choice) where
  num : B64
  factors : Option (B64 × B64)
  hist : Hist

namespace Fused
variable {c : Choice}

/-- A number that is not a product. -/
def of (x : B64) (h : Hist) : Fused c := ⟨x, none, h⟩

/-- `x + y` by one instruction, if `x` is a product and the compiler decides so. -/
def fuse (x y : Fused c) : Option B64 :=
  match x.factors with
  | some (a, b) => if c x.hist y.hist then some (B64.fma a b y.num) else none
  | none => none

/-- `-x`; a product remains one. -/
def minus (x : Fused c) : Fused c := ⟨x.num.neg, x.factors.map fun f => (f.1.neg, f.2), .unary 0 x.hist⟩

/-- `x + y`: fused into the left or the right product, or not at all. -/
def plus (x y : Fused c) : B64 :=
  match x.fuse y with
  | some r => r
  | none =>
    match y.fuse x with
    | some r => r
    | none => x.num +. y.num

/-- The operations of a compiler that fuses by `c`. Comparisons, quotients and library functions see rounded numbers. -/
instance : GoFloat (Fused c) where
  add x y := of (plus x y) (.binary 0 x.hist y.hist)
  sub x y := of (plus x (minus y)) (.binary 1 x.hist y.hist)
  mul x y := ⟨x.num *. y.num, some (x.num, y.num), .binary 2 x.hist y.hist⟩
  div x y := of (x.num /. y.num) (.binary 3 x.hist y.hist)
  lt x y := x.num <. y.num
  le x y := x.num <=. y.num
  eq x y := x.num ==. y.num
  ofInt n := of (fl n) (.const n)
  lit q := of (lit q) (.const q)
  isNaN x := isNaN x.num
  isPosInf x := isPosInf x.num
  isNegInf x := isNegInf x.num
  abs x := of (abs x.num) (.unary 1 x.hist)
  max x y := of (GoFloat.max x.num y.num) (.binary 4 x.hist y.hist)
  min x y := of (GoFloat.min x.num y.num) (.binary 5 x.hist y.hist)

instance [B64.MathLib] : GoMath (Fused c) where
  sqrt x := of (GoMath.sqrt x.num) (.unary 2 x.hist)
  atan x := of (GoMath.atan x.num) (.unary 3 x.hist)
  pow x y := of (GoMath.pow x.num y.num) (.binary 6 x.hist y.hist)
  round x := of (GoMath.round x.num) (.unary 4 x.hist)
  degPerRad := of GoMath.degPerRad (.input 0)

/-- A sum is one of three numbers. -/
theorem add_cases (x y : Fused c) :
    (x +. y).num = x.num +. y.num ∨ (∃ a b, x.factors = some (a, b) ∧ (x +. y).num = B64.fma a b y.num) ∨
      ∃ a b, y.factors = some (a, b) ∧ (x +. y).num = B64.fma a b x.num := by
  show plus x y = _ ∨ (∃ a b, _ ∧ plus x y = _) ∨ ∃ a b, _ ∧ plus x y = _
  have key : ∀ (u v : Fused c) (r : B64), u.fuse v = some r → ∃ a b, u.factors = some (a, b) ∧ r = B64.fma a b v.num := by
    intro u v r h
    unfold fuse at h
    split at h
    · next a b e =>
      split at h
      · exact ⟨a, b, e, (Option.some.inj h).symm⟩
      · cases h
    · cases h
  unfold plus
  split
  · next r h => exact .inr (.inl (key _ _ _ h))
  · split
    · next r h => exact .inr (.inr (key _ _ _ h))
    · exact .inl rfl

theorem sub_eq_add (x y : Fused c) : (x -. y).num = (x +. minus y).num := rfl

/-- Without fusing this is float64 arithmetic. -/
theorem never_fused (x y : Fused fun _ _ => false) :
    (x +. y).num = x.num +. y.num ∧ (x -. y).num = x.num -. y.num ∧ (x *. y).num = x.num *. y.num ∧
      (x /. y).num = x.num /. y.num := by
  have h : ∀ u v : Fused fun _ _ => false, u.fuse v = none := by
    intro u z; unfold fuse; split <;> rfl
  refine ⟨?_, ?_, rfl, rfl⟩
  · show plus x y = _
    rw [plus, h, h]
  · show plus x (minus y) = _
    rw [plus, h, h]; rfl

end Fused

end Verif
