import Verif.Go.Binary64

/-!
# How NaN spreads

The rules of IEEE 754 for NaN that the arithmetic operators and comparisons share, stated once for the exact numbers `XF`
and for binary64.
-/

namespace Verif
open GoFloat

/-- An operation with a NaN operand gives NaN, and a comparison with one is false. -/
class NanLaw (F : Type) [GoFloat F] : Prop where
  add_left : ∀ {a : F} (b : F), isNaN a = true → isNaN (a +. b) = true
  add_right : ∀ (a : F) {b : F}, isNaN b = true → isNaN (a +. b) = true
  sub_left : ∀ {a : F} (b : F), isNaN a = true → isNaN (a -. b) = true
  sub_right : ∀ (a : F) {b : F}, isNaN b = true → isNaN (a -. b) = true
  mul_left : ∀ {a : F} (b : F), isNaN a = true → isNaN (a *. b) = true
  mul_right : ∀ (a : F) {b : F}, isNaN b = true → isNaN (a *. b) = true
  div_left : ∀ {a : F} (b : F), isNaN a = true → isNaN (a /. b) = true
  div_right : ∀ (a : F) {b : F}, isNaN b = true → isNaN (a /. b) = true
  lt_left : ∀ {a : F} (b : F), isNaN a = true → (a <. b) = false
  lt_right : ∀ (a : F) {b : F}, isNaN b = true → (a <. b) = false
  eq_left : ∀ {a : F} (b : F), isNaN a = true → (a ==. b) = false
  int : ∀ n : Int, isNaN (fl n : F) = false

theorem XF.eq_nan {K : Type} [Field K] [LinearOrder K] {a : XF K} (h : isNaN a = true) : a = .nan := by
  cases a <;> first | rfl | cases h

theorem B64.eq_nan {a : B64} (h : isNaN a = true) : a = .nan := by
  cases a <;> first | rfl | cases h

instance {K : Type} [Field K] [LinearOrder K] : NanLaw (XF K) where
  add_left b h := by rw [XF.eq_nan h]; cases b <;> rfl
  add_right a _ h := by rw [XF.eq_nan h]; cases a <;> rfl
  sub_left b h := by rw [XF.eq_nan h]; cases b <;> rfl
  sub_right a _ h := by rw [XF.eq_nan h]; cases a <;> rfl
  mul_left b h := by rw [XF.eq_nan h]; cases b <;> rfl
  mul_right a _ h := by rw [XF.eq_nan h]; cases a <;> rfl
  div_left b h := by rw [XF.eq_nan h]; cases b <;> rfl
  div_right a _ h := by rw [XF.eq_nan h]; cases a <;> rfl
  lt_left b h := by rw [XF.eq_nan h]; cases b <;> rfl
  lt_right a _ h := by rw [XF.eq_nan h]; cases a <;> rfl
  eq_left b h := by rw [XF.eq_nan h]; cases b <;> rfl
  int _ := rfl

theorem B64.isNaN_ofRat (z : Bool) (q : ℚ) : isNaN (B64.ofRat z q) = false := by
  unfold B64.ofRat B64.ofMag
  split
  · rfl
  · split <;> rfl

instance : NanLaw B64 where
  add_left b h := by rw [B64.eq_nan h]; cases b <;> rfl
  add_right a _ h := by rw [B64.eq_nan h]; cases a <;> rfl
  sub_left b h := by rw [B64.eq_nan h]; cases b <;> rfl
  sub_right a _ h := by rw [B64.eq_nan h]; cases a <;> rfl
  mul_left b h := by rw [B64.eq_nan h]; cases b <;> rfl
  mul_right a _ h := by rw [B64.eq_nan h]; cases a <;> rfl
  div_left b h := by rw [B64.eq_nan h]; cases b <;> rfl
  div_right a _ h := by rw [B64.eq_nan h]; cases a <;> rfl
  lt_left b h := by
    rw [B64.eq_nan h]
    show XF.lt .nan b.val = false
    cases b.val <;> rfl
  lt_right a _ h := by
    rw [B64.eq_nan h]
    show XF.lt a.val .nan = false
    cases a.val <;> rfl
  eq_left b h := by
    rw [B64.eq_nan h]
    show XF.eq .nan b.val = false
    cases b.val <;> rfl
  int _ := B64.isNaN_ofRat _ _

end Verif
