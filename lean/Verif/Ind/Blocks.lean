import Verif.Ind.Core

/-!
# Order blocks of SmartMoneyConcepts
-/

namespace Verif.Ind
open Verif

/-- Models trend/SmartMoneyConcepts_type.go:11-18 `SmartMoneyConceptsDataOrderBlock`; the time as Unix seconds. -/
structure Block (F : Type) where
  isTop : Bool
  time : Int
  close : F
  high : F
  low : F
  open_ : F
  deriving DecidableEq, Repr

variable {F : Type}

/-- Models trend/SmartMoneyConcepts_type.go:20-23 `Equal`. -/
def Block.Equal (e k : Block F) : Bool := (e.isTop == k.isTop) && (e.time == k.time)

/-- Models trend/SmartMoneyConcepts_type.go:27-34 `Contains`. -/
def Contains (e : List (Block F)) (k : Block F) : Bool := e.any fun b => b.Equal k

/-- Models trend/SmartMoneyConcepts_type.go:36-42 `Add`. The new slice has its own backing array, so no other
slice changes. -/
def Add (e : List (Block F)) (k : Block F) : List (Block F) := if !(Contains e k) then k :: e else e

/-- The loop of `Remove` from index `x` on: `list` is the copy of the whole slice, `rest` what is still to be
compared. -/
def removeFrom (list : List (Block F)) (k : Block F) : Nat → List (Block F) → Go (List (Block F))
  | _, [] => .ok []
  | x, b :: rest =>
    if b.Equal k then do
      let l ← slice list 0 x
      let r ← slice list (x + 1) list.length
      pure (l ++ r)
    else removeFrom list k (x + 1) rest

/-- Models trend/SmartMoneyConcepts_type.go:44-55 `Remove`: works on a copy; nil when nothing matches. -/
def Remove (e : List (Block F)) (k : Block F) : Go (List (Block F)) := removeFrom e k 0 e

theorem removeFrom_eq (k : Block F) (rest pre : List (Block F)) :
    removeFrom (pre ++ rest) k pre.length rest =
      .ok (if rest.any (fun b => b.Equal k) then pre ++ rest.eraseP fun b => b.Equal k else []) := by
  induction rest generalizing pre with
  | nil => rfl
  | cons b rest ih =>
    rw [removeFrom]
    by_cases hb : b.Equal k = true
    · rw [if_pos hb]
      have e1 : slice (pre ++ b :: rest) 0 pre.length = .ok pre := by
        unfold slice
        rw [if_pos (by simp; omega)]
        simp
      have e2 : slice (pre ++ b :: rest) ((pre.length : Int) + 1) ((pre ++ b :: rest).length : Nat) = .ok rest := by
        unfold slice
        rw [if_pos (by simp; omega)]
        have e3 : ((pre.length : Int) + 1).toNat = pre.length + 1 := by omega
        rw [Int.toNat_natCast, List.take_length, e3, List.drop_append]
        simp
      rw [e1, ok_bind, e2, ok_bind, List.eraseP_cons_of_pos (p := fun b : Block F => b.Equal k) hb]
      simp [hb]
    · rw [if_neg hb]
      have := ih (pre ++ [b])
      simp only [List.append_assoc, List.singleton_append, List.length_append, List.length_singleton] at this
      rw [this, List.eraseP_cons_of_neg (p := fun b : Block F => b.Equal k) hb]
      simp [hb]

theorem Remove_eq (e : List (Block F)) (k : Block F) :
    Remove e k = .ok (if Contains e k then e.eraseP fun b => b.Equal k else []) := by
  simpa [Remove, Contains] using removeFrom_eq k e []

theorem Equal_iff (a b : Block F) : a.Equal b = true ↔ a.isTop = b.isTop ∧ a.time = b.time := by
  simp [Block.Equal]

theorem Contains_iff (e : List (Block F)) (k : Block F) :
    Contains e k = true ↔ ∃ b ∈ e, b.isTop = k.isTop ∧ b.time = k.time := by
  simp [Contains, Equal_iff]

end Verif.Ind
