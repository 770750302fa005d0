import Verif.Ta.Elem

/-!
# Float slices in memory

`Nzs` is the one function of utils/ta that writes through the slice it is given. Here a slice is a
window into a backing array, so that what other slices of the same array see can be stated.
-/

namespace Verif.Ta
open Verif GoFloat

variable {F : Type}

/-- Memory: the backing arrays of `[]float64` slices. -/
abbrev FMem (F : Type) := List (List F)

/-- A slice header of type `[]float64`. -/
structure FSlice where
  arr : Nat
  off : Nat
  len : Nat
  deriving DecidableEq, Repr

/-- Read `s[i]`. -/
def FMem.load (m : FMem F) (s : FSlice) (i : Int) : Go F :=
  if 0 ≤ i ∧ i < s.len then
    match m[s.arr]? with
    | some a => idx a (s.off + i)
    | none => .error .index
  else .error .index

/-- Write `s[i] = v`. -/
def FMem.store (m : FMem F) (s : FSlice) (i : Int) (v : F) : Go (FMem F) :=
  if 0 ≤ i ∧ i < s.len then
    match m[s.arr]? with
    | some a => do
      let a' ← setAt a (s.off + i) v
      pure (m.set s.arr a')
    | none => .error .index
  else .error .index

/-- Models utils/ta/ta.go:1096-1101 `Nzs` with its writes: the memory afterwards and the returned slice. -/
def NzsH [GoFloat F] (m : FMem F) (vals : FSlice) (replacement : F) : Go (FMem F × FSlice) := do
  let m ← goFor 0 vals.len m fun i m => do
    let v ← m.load vals i
    m.store vals i (Nz v replacement)
  pure (m, vals)

/-- The cell `j` of backing array `k`. -/
def FMem.cell (m : FMem F) (k j : Nat) : Option F := (m[k]?).bind fun a => a[j]?

/-- The slice lies inside its backing array. -/
def FSlice.Valid (s : FSlice) (m : FMem F) : Prop := ∃ a, m[s.arr]? = some a ∧ s.off + s.len ≤ a.length

variable [GoFloat F]

theorem NzsH_run (m : FMem F) (s : FSlice) (hs : s.Valid m) (r : F) :
    ∃ m', NzsH m s r = .ok (m', s) ∧ m'.length = m.length ∧
      ∀ k j, m'.cell k j =
        if k = s.arr ∧ s.off ≤ j ∧ j < s.off + s.len then (m.cell k j).map fun v => Nz v r else m.cell k j := by
  obtain ⟨a, ha, hl⟩ := hs
  have hlt : s.arr < m.length := by
    by_contra h
    rw [List.getElem?_eq_none (by omega)] at ha; cases ha
  obtain ⟨m', hrun, a', hm', hlen, hcell⟩ := goFor_inv (n := s.len) (s := m)
    (body := fun i m => do
      let v ← m.load s i
      m.store s i (Nz v r))
    (fun k m' => ∃ a', m' = m.set s.arr a' ∧ a'.length = a.length ∧
      ∀ j, a'[j]? = if s.off ≤ j ∧ j < s.off + k then (a[j]?).map fun v => Nz v r else a[j]?)
    ⟨a, by
      obtain ⟨_, rfl⟩ := List.getElem?_eq_some_iff.mp ha
      exact (List.set_getElem_self _).symm, rfl, fun j => by rw [if_neg (by omega)]⟩
    (by
      rintro k m₁ hk ⟨a₁, rfl, hl₁, hc⟩
      have hg : (m.set s.arr a₁)[s.arr]? = some a₁ := by rw [List.getElem?_set_self hlt]
      have ho : a₁[s.off + k]? = a[s.off + k]? := by rw [hc, if_neg (by omega)]
      have hin : s.off + k < a.length := by omega
      have hv : a₁[s.off + k]? = some a[s.off + k] := by rw [ho, List.getElem?_eq_getElem hin]
      have ei : (s.off : Int) + (k : Int) = ((s.off + k : Nat) : Int) := by omega
      have hload : FMem.load (m.set s.arr a₁) s k = .ok a[s.off + k] := by
        unfold FMem.load
        rw [if_pos (by omega), hg]
        show idx a₁ ((s.off : Int) + (k : Int)) = _
        rw [ei]
        exact idx_of_getElem? hv
      have hstore : FMem.store (m.set s.arr a₁) s k (Nz a[s.off + k] r) =
          .ok (m.set s.arr (a₁.set (s.off + k) (Nz a[s.off + k] r))) := by
        unfold FMem.store
        rw [if_pos (by omega), hg]
        show (setAt a₁ ((s.off : Int) + (k : Int)) _ >>= _) = _
        rw [ei, setAt_nat (by omega)]
        show Except.ok _ = _
        rw [List.set_set]
      refine ⟨_, by rw [hload, ok_bind, hstore], a₁.set (s.off + k) (Nz a[s.off + k] r), rfl, by simpa using hl₁, fun j => ?_⟩
      rw [List.getElem?_set]
      by_cases hj : s.off + k = j
      · subst hj
        rw [if_pos rfl, if_pos (by omega), if_pos (by omega), List.getElem?_eq_getElem hin]
        rfl
      · rw [if_neg hj, hc]
        by_cases h2 : s.off ≤ j ∧ j < s.off + k
        · rw [if_pos h2, if_pos (by omega)]
        · rw [if_neg h2, if_neg (by omega)])
  refine ⟨m', by unfold NzsH; rw [hrun]; rfl, by rw [hm']; simp, fun k j => ?_⟩
  subst hm'
  unfold FMem.cell
  rw [List.getElem?_set]
  by_cases hk : s.arr = k
  · subst hk
    rw [if_pos rfl, if_pos hlt, ha]
    simp only [Option.bind_some, hcell, true_and]
  · rw [if_neg hk, if_neg (fun h => hk h.1.symm)]

end Verif.Ta
