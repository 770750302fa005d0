import Verif.Ind.Core

/-!
# The record slices of an object in memory

`GetData` returns `e.data` itself, a slice header. Here a slice is a window into a backing array, so that what a
program sees through a slice it has kept, and what it does to the object through it, can be stated.
-/

namespace Verif.Ind
open Verif

variable {D : Type}

/-- Memory: the backing arrays of the record slices. -/
abbrev RMem (D : Type) := List (List D)

/-- A slice header. All slices here start at the first cell of their array: `e.data` begins as nil and is only appended to
or replaced by a `make` (such as volume/ForceIndex.go:54 and trend/Macd.go:75). Simplification: nil is a slice of length 0. -/
structure RSlice where
  arr : Nat
  len : Nat
  deriving DecidableEq, Repr

/-- The backing array of a slice; its length is the capacity. -/
def RMem.back (m : RMem D) (s : RSlice) : List D := m[s.arr]?.getD []

/-- The records a slice shows. -/
def RMem.shown (m : RMem D) (s : RSlice) : List D := (m.back s).take s.len

/-- `s[i] = v`. -/
def RMem.write (m : RMem D) (s : RSlice) (i : Nat) (v : D) : Go (RMem D) :=
  if i < s.len then .ok (m.set s.arr ((m.back s).set i v)) else .error .index

/-- `append(s, v)`: in place if the capacity allows it, otherwise into a new array. `grow n` is the capacity the run-time
gives to a slice that must hold `n` records; nothing is assumed about it. -/
def RMem.append (grow : Nat → Nat) (zero : D) (m : RMem D) (s : RSlice) (v : D) : RMem D × RSlice :=
  if s.len < (m.back s).length then (m.set s.arr ((m.back s).set s.len v), ⟨s.arr, s.len + 1⟩)
  else (m ++ [m.shown s ++ v :: List.replicate (grow (s.len + 1) - (s.len + 1)) zero], ⟨m.length, s.len + 1⟩)

/-- `for ... { e.data = append(e.data, v) }`: the loop of the `Calculation` methods that append (such as
volume/ForceIndex.go:53-58). -/
def RMem.appendAll (grow : Nat → Nat) (zero : D) (m : RMem D) (s : RSlice) : List D → RMem D × RSlice
  | [] => (m, s)
  | v :: vs => let (m, s) := m.append grow zero s v; m.appendAll grow zero s vs

/-- `e.data = make([]T, n)` and its filling, in the `Calculation` methods that build a new slice (such as
trend/Macd.go:75-84). -/
def RMem.makeAll (m : RMem D) (vs : List D) : RMem D × RSlice := (m ++ [vs], ⟨m.length, vs.length⟩)

/-- The slice lies inside an array of the memory. -/
def RMem.Valid (m : RMem D) (s : RSlice) : Prop := s.arr < m.length ∧ s.len ≤ (m.back s).length

instance (m : RMem D) (s : RSlice) : Decidable (m.Valid s) := inferInstanceAs (Decidable (_ ∧ _))

theorem RMem.back_set {m : RMem D} {s t : RSlice} (h : s.arr < m.length) (a : List D) :
    RMem.back (m.set s.arr a) t = if t.arr = s.arr then a else m.back t := by
  unfold RMem.back
  by_cases e : t.arr = s.arr
  · rw [if_pos e, e, List.getElem?_set_self h]; rfl
  · rw [if_neg e, List.getElem?_set_ne (fun h => e h.symm)]

theorem RMem.back_old {m : RMem D} {t : RSlice} (h : t.arr < m.length) (l : List (List D)) :
    RMem.back (m ++ l) t = m.back t := by
  unfold RMem.back; rw [List.getElem?_append_left h]

theorem RMem.back_new {m : RMem D} (a : List D) (n : Nat) : RMem.back (m ++ [a]) ⟨m.length, n⟩ = a := by
  unfold RMem.back; simp

/-- One append. -/
theorem RMem.append_spec {grow : Nat → Nat} {zero : D} {m : RMem D} {s : RSlice} (h : m.Valid s) (v : D)
    {m' : RMem D} {s' : RSlice} (e : m.append grow zero s v = (m', s')) :
    m'.Valid s' ∧ m'.shown s' = m.shown s ++ [v] ∧ s'.len = s.len + 1 ∧ m.length ≤ m'.length ∧
      (s.len < (m.back s).length → s'.arr = s.arr ∧ (m'.back s').length = (m.back s).length) ∧
      ((m.back s).length ≤ s.len → s'.arr = m.length) ∧
      ∀ t, m.Valid t → m'.Valid t ∧ ((t.arr = s.arr → t.len ≤ s.len) → m'.shown t = m.shown t) := by
  obtain ⟨h1, h2⟩ := h
  unfold RMem.append at e
  split at e
  · next hc =>
    obtain ⟨rfl, rfl⟩ := Prod.mk.inj e
    have hb : RMem.back (m.set s.arr ((m.back s).set s.len v)) ⟨s.arr, s.len + 1⟩ = (m.back s).set s.len v := by
      rw [RMem.back_set h1, if_pos rfl]
    refine ⟨⟨by simpa using h1, by rw [hb, List.length_set]; exact hc⟩, ?_, rfl, by simp, fun _ => ⟨rfl, by rw [hb]; simp⟩,
      fun h => absurd hc (by omega), ?_⟩
    · simp only [RMem.shown, hb]
      rw [List.take_add_one, List.take_set_of_le (Nat.le_refl _), List.getElem?_set_self hc]
      rfl
    · intro t ht
      by_cases ea : t.arr = s.arr
      · have eb : m.back t = m.back s := by unfold RMem.back; rw [ea]
        have hl := ht.2
        rw [eb] at hl
        refine ⟨⟨by simpa using ht.1, by rw [RMem.back_set h1, if_pos ea, List.length_set]; exact hl⟩, fun hl => ?_⟩
        simp only [RMem.shown]
        rw [RMem.back_set h1, if_pos ea, List.take_set_of_le (hl ea), eb]
      · refine ⟨⟨by simpa using ht.1, by rw [RMem.back_set h1, if_neg ea]; exact ht.2⟩, fun _ => ?_⟩
        simp only [RMem.shown]
        rw [RMem.back_set h1, if_neg ea]
  · next hc =>
    obtain ⟨rfl, rfl⟩ := Prod.mk.inj e
    have hl : (m.shown s).length = s.len := by simp only [RMem.shown, List.length_take]; omega
    refine ⟨⟨by simp, ?_⟩, ?_, rfl, by simp, fun h => absurd h hc, fun _ => rfl, ?_⟩
    · rw [RMem.back_new]; simp [hl]
    · rw [show RMem.shown _ (⟨m.length, s.len + 1⟩ : RSlice) = _ from by rw [RMem.shown, RMem.back_new]]
      show List.take (s.len + 1) _ = _
      rw [List.take_append, hl, List.take_of_length_le (by omega)]
      simp
    · intro t ht
      refine ⟨⟨by have := ht.1; simp; omega, by rw [RMem.back_old ht.1]; exact ht.2⟩, fun _ => ?_⟩
      simp only [RMem.shown, RMem.back_old ht.1]

/-- The whole loop. -/
theorem RMem.appendAll_spec {grow : Nat → Nat} {zero : D} (vs : List D) : ∀ {m : RMem D} {s : RSlice}, m.Valid s →
    ∀ {m' : RMem D} {s' : RSlice}, m.appendAll grow zero s vs = (m', s') →
    m'.Valid s' ∧ m'.shown s' = m.shown s ++ vs ∧ s'.len = s.len + vs.length ∧ m.length ≤ m'.length ∧
      (s.len + vs.length ≤ (m.back s).length → s'.arr = s.arr) ∧
      ((m.back s).length < s.len + vs.length → m.length ≤ s'.arr) ∧
      ∀ t, m.Valid t → (t.arr = s.arr → t.len ≤ s.len) → m'.Valid t ∧ m'.shown t = m.shown t := by
  induction vs with
  | nil =>
    intro m s h m' s' e
    obtain ⟨rfl, rfl⟩ := Prod.mk.inj e
    exact ⟨h, by simp, rfl, Nat.le_refl _, fun _ => rfl, fun hc => absurd h.2 (by simpa using hc), fun t ht _ => ⟨ht, rfl⟩⟩
  | cons v vs ih =>
    intro m s h m' s' e
    obtain ⟨⟨m₁, s₁⟩, e₁⟩ : ∃ r, r = m.append grow zero s v := ⟨_, rfl⟩
    obtain ⟨v1, k1, l1, n1, in1, out1, o1⟩ := RMem.append_spec h v e₁.symm
    rw [RMem.appendAll, ← e₁] at e
    obtain ⟨v2, k2, l2, n2, in2, out2, o2⟩ := ih v1 e
    have harr : s₁.arr = s.arr ∨ s₁.arr = m.length := by
      rcases Nat.lt_or_ge s.len (m.back s).length with hc | hc
      · exact .inl (in1 hc).1
      · exact .inr (out1 hc)
    refine ⟨v2, by rw [k2, k1]; simp, by rw [l2, l1, List.length_cons]; omega, by omega, ?_, ?_, ?_⟩
    · intro hc
      rw [List.length_cons] at hc
      obtain ⟨a1, c1⟩ := in1 (by omega)
      rw [in2 (by rw [l1, c1]; omega), a1]
    · intro hc
      rw [List.length_cons] at hc
      rcases Nat.lt_or_ge s.len (m.back s).length with hc' | hc'
      · obtain ⟨a1, c1⟩ := in1 hc'
        have := out2 (by rw [l1, c1]; omega)
        omega
      · have a1 := out1 hc'
        rcases Nat.lt_or_ge (m₁.back s₁).length (s₁.len + vs.length) with hd | hd
        · have := out2 hd; omega
        · rw [in2 hd, a1]
    · intro t ht hl
      obtain ⟨w1, w2⟩ := o1 t ht
      obtain ⟨w3, w4⟩ := o2 t w1 (by
        rcases harr with ha | ha
        · intro et; have := hl (et.trans ha); omega
        · intro et; have := ht.1; omega)
      exact ⟨w3, w4.trans (w2 hl)⟩

/-- A write through a slice. -/
theorem RMem.write_spec {m : RMem D} {s : RSlice} (h : m.Valid s) {i : Nat} (hi : i < s.len) (v : D) :
    ∃ m', m.write s i v = .ok m' ∧ m'.length = m.length ∧ ∀ t, m.Valid t → m'.Valid t ∧
      m'.shown t = if t.arr = s.arr then (m.shown t).set i v else m.shown t := by
  refine ⟨_, if_pos hi, by simp, fun t ht => ?_⟩
  by_cases ea : t.arr = s.arr
  · have eb : m.back t = m.back s := by unfold RMem.back; rw [ea]
    have hl := ht.2
    rw [eb] at hl
    refine ⟨⟨by simpa using ht.1, by rw [RMem.back_set h.1, if_pos ea, List.length_set]; exact hl⟩, ?_⟩
    simp only [RMem.shown]
    rw [RMem.back_set h.1, if_pos ea, if_pos ea, eb, List.take_set]
  · refine ⟨⟨by simpa using ht.1, by rw [RMem.back_set h.1, if_neg ea]; exact ht.2⟩, ?_⟩
    simp only [RMem.shown]
    rw [RMem.back_set h.1, if_neg ea, if_neg ea]

/-! ## Objects -/

/-- An object of package trend, channel, oscillator or volume: the fields that matter are the source and `data`. -/
structure ObjR {F : Type} (I : Indicator F) where
  src : I.S
  data : RSlice

/-- How `Calculation` stores its records: by `append(e.data, ...)` or in a new slice. -/
inductive Store where
  | append
  | make

variable {F : Type} {I : Indicator F}

/-- The object as the rest of the model sees it. -/
def RMem.view (m : RMem I.D) (e : ObjR I) : Obj I := ⟨e.src, m.shown e.data⟩

/-- `e.Calculation()` with its effect on memory. The records it adds do not depend on the ones already there (C39), so they
are computed first. -/
def ObjR.Calculation (grow : Nat → Nat) (zero : I.D) (k : Store) (m : RMem I.D) (e : ObjR I) : Go (RMem I.D × ObjR I) := do
  let vs ← I.compute e.src []
  match k with
  | .append => pure ((m.appendAll grow zero e.data vs).1, { e with data := (m.appendAll grow zero e.data vs).2 })
  | .make => pure ((m.makeAll vs).1, { e with data := (m.makeAll vs).2 })

/-- `e.GetData()` (such as trend/Macd.go:118-123): the slice header itself is returned. -/
def ObjR.GetData (grow : Nat → Nat) (zero : I.D) (k : Store) (m : RMem I.D) (e : ObjR I) :
    Go (RSlice × RMem I.D × ObjR I) := do
  let (m, e) ← if e.data.len = 0 then e.Calculation grow zero k m else pure (m, e)
  pure (e.data, m, e)

end Verif.Ind
