import Verif.Ind.Core

/-!
# Running several strategies

Strategies are pointers behind an interface, so the same object may occur several times in the list; the
objects therefore live in a heap. The address of an object fixes its type (`I a`) and its name.
-/

namespace Verif.Ind
open Verif Verif.Klines

variable {F : Type}

/-- Models utils/Side.go:8-11 `SideData`. -/
structure SideData where
  name : String
  data : List Side
  deriving DecidableEq, Repr

/-- A heap of strategy objects: what is at each address, if anything. -/
abbrev Heap (I : Nat → Strat F) := (a : Nat) → Option (Obj (I a).toIndicator)

/-- `strategies[i].AnalysisSide()` through the interface: the result and the heap afterwards. A nil
pointer panics (every `AnalysisSide` reads a field of `e`). The name is the `Name` field, which no
`AnalysisSide` changes. -/
def callSide (I : Nat → Strat F) (names : Nat → String) (h : Heap I) (p : Option Nat) : Go (SideData × Heap I) :=
  match p with
  | none => .error .nilDeref
  | some a =>
    match h a with
    | none => .error .nilDeref
    | some e => do
      let (s, e') ← (I a).AnalysisSide e
      pure (⟨names a, s⟩, Function.update h a (some e'))

/-- Models utils/interface.go:8-16 `RunStrategies`. -/
def RunStrategies (I : Nat → Strat F) (names : Nat → String) (h : Heap I) (strategies : List (Option Nat)) :
    Go (List SideData × Heap I) := do
  let actions ← mk (strategies.length : Int) (⟨"", []⟩ : SideData)
  goFor 0 strategies.length (actions, h) fun i (actions, h) => do
    let p ← idx strategies i
    let (r, h) ← callSide I names h p
    let actions ← setAt actions i r
    pure (actions, h)

/-! ## Calling twice -/

theorem ensure_ensure {I : Indicator F} {e e' : Obj I} (h : e.ensure = .ok e') : e'.ensure = .ok e' := by
  unfold Obj.ensure at h ⊢
  by_cases h0 : e.data.length = 0
  · rw [if_pos h0] at h
    by_cases h1 : e'.data.length = 0
    · rw [if_pos h1]
      unfold Obj.Calculation at h ⊢
      cases hc : I.compute e.src e.data with
      | error p => rw [hc] at h; cases h
      | ok d =>
        rw [hc] at h
        cases h
        have hd : d = [] := List.eq_nil_of_length_eq_zero h1
        have he : e.data = [] := List.eq_nil_of_length_eq_zero h0
        subst hd
        rw [he] at hc
        simp only [hc, ok_bind, pure_eq_ok]
    · rw [if_neg h1]; rfl
  · rw [if_neg h0] at h
    cases h
    rw [if_neg h0]; rfl

/-- Reading once more gives the same result and leaves the object as it is. -/
theorem read_read {I : Indicator F} {R : Type} {r : I.S → List I.D → Go R} {e e' : Obj I} {v : R}
    (h : e.read r = .ok (v, e')) : e'.read r = .ok (v, e') := by
  unfold Obj.read at h ⊢
  cases hc : e.ensure with
  | error p => rw [hc] at h; cases h
  | ok e₁ =>
    rw [hc, ok_bind] at h
    cases hr : r e₁.src e₁.data with
    | error p => rw [hr] at h; cases h
    | ok v₁ =>
      rw [hr] at h
      cases h
      rw [ensure_ensure hc, ok_bind, hr]; rfl

/-- What one call returns, as a function of the heap. -/
def sideOf (I : Nat → Strat F) (names : Nat → String) (h : Heap I) (p : Option Nat) : Go SideData := do
  let (r, _) ← callSide I names h p
  pure r

theorem callSide_ok {I : Nat → Strat F} {names : Nat → String} {h h' : Heap I} {p : Option Nat} {r : SideData}
    (hc : callSide I names h p = .ok (r, h')) :
    ∃ a e e' s, p = some a ∧ h a = some e ∧ (I a).AnalysisSide e = .ok (s, e') ∧ r = ⟨names a, s⟩ ∧
      h' = Function.update h a (some e') := by
  unfold callSide at hc
  cases p with
  | none => cases hc
  | some a =>
    simp only at hc
    cases he : h a with
    | none => rw [he] at hc; cases hc
    | some e =>
      rw [he] at hc
      simp only at hc
      cases hs : (I a).AnalysisSide e with
      | error p => rw [hs] at hc; cases hc
      | ok se =>
        rw [hs] at hc
        cases hc
        exact ⟨a, e, se.2, se.1, rfl, he, hs, rfl, rfl⟩

/-- A call does not change what any later call returns. -/
theorem sideOf_after {I : Nat → Strat F} {names : Nat → String} {h h' : Heap I} {p : Option Nat} {r : SideData}
    (hc : callSide I names h p = .ok (r, h')) (q : Option Nat) : sideOf I names h' q = sideOf I names h q := by
  obtain ⟨a, e, e', s, rfl, he, hs, rfl, rfl⟩ := callSide_ok hc
  cases q with
  | none => rfl
  | some b =>
    by_cases hb : b = a
    · subst hb
      have h2 : (I b).AnalysisSide e' = .ok (s, e') := read_read hs
      simp only [sideOf, callSide, Function.update_self, he, hs, h2]
      rfl
    · simp only [sideOf, callSide, Function.update_of_ne hb]
      cases h b with
      | none => rfl
      | some o =>
        simp only
        cases (I b).AnalysisSide o <;> rfl

end Verif.Ind
