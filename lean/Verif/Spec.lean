import Verif.Go.Num
import Mathlib.Algebra.BigOperators.Intervals
import Mathlib.Algebra.Order.BigOperators.Group.Finset
import Mathlib.Algebra.BigOperators.Fin
import Mathlib.Tactic.FieldSimp

/-!
# Specification vocabulary

Small definitions used in the statements of the property theorems. They do not mention any model
function. `tab n a` (from `Go.Basic`) is the slice `[a 0, .., a (n-1)]`; every slice has this form.
-/

namespace Verif

/-- The last `p` values of `xs` up to and including index `i` (fewer at the start). -/
def window (p i : Nat) (xs : List α) : List α := (xs.take (i + 1)).drop (i + 1 - p)

/-- A slice of finite exact numbers, as float64 values. -/
def fins {K : Type _} (xs : List K) : List (XF K) := xs.map .fin

/-- Arithmetic mean. -/
def mean {K : Type _} [Field K] (xs : List K) : K := xs.sum / xs.length

/-- Population variance. -/
def pvar {K : Type _} [Field K] (xs : List K) : K :=
  (xs.map fun v => (v - mean xs) ^ 2).sum / xs.length

/-- Squared error of the line `y = m x + b` at the points `(x j, y j)`, `j < n`. -/
def sqErr {K : Type _} [Field K] (n : Nat) (x y : Nat → K) (m b : K) : K :=
  ∑ j ∈ Finset.range n, (y j - (m * x j + b)) ^ 2

/-- Squared error of the line `y = m x + b` on a list of points. -/
def ptsErr {K : Type _} [Field K] (pts : List (K × K)) (m b : K) : K :=
  (pts.map fun q => (q.2 - (m * q.1 + b)) ^ 2).sum

/-- The values of a window as points with abscissae `0, 1, 2, ..`. -/
def asPoints {K : Type _} [Field K] (ws : List K) : List (K × K) :=
  ws.mapIdx fun j w => ((j : K), w)

/-- `m, b` is the unique line of least squared error on the points. -/
def IsBestLine {K : Type _} [Field K] [LinearOrder K] (pts : List (K × K)) (m b : K) : Prop :=
  ∀ m' b', ptsErr pts m b ≤ ptsErr pts m' b' ∧
    (ptsErr pts m' b' = ptsErr pts m b → m' = m ∧ b' = b)

/-! ## Facts about the vocabulary -/

theorem sum_tab {K : Type _} [AddCommMonoid K] (n : Nat) (a : Nat → K) :
    (tab n a).sum = ∑ j ∈ Finset.range n, a j := by
  induction n with
  | zero => simp
  | succ n ih => rw [tab_succ, List.sum_append, ih, Finset.sum_range_succ]; simp

theorem ptsErr_tab {K : Type _} [Field K] (n : Nat) (x y : Nat → K) (m b : K) :
    ptsErr (tab n fun j => (x j, y j)) m b = ∑ j ∈ Finset.range n, (y j - (m * x j + b)) ^ 2 := by
  rw [ptsErr, map_tab, sum_tab]

theorem asPoints_tab {K : Type _} [Field K] (n : Nat) (a : Nat → K) :
    asPoints (tab n a) = tab n fun j => ((j : K), a j) := by
  refine eq_tab_of_forall (by simp [asPoints]) fun i hi => ?_
  rw [asPoints, List.getElem?_mapIdx, tab_getElem?_lt hi]; rfl

theorem mem_window {p i : Nat} {xs : List α} {w : α} :
    w ∈ window p i xs ↔ ∃ j, i + 1 ≤ j + p ∧ j ≤ i ∧ xs[j]? = some w := by
  unfold window
  rw [List.mem_iff_getElem?]
  constructor
  · rintro ⟨m, hm⟩
    rw [List.getElem?_drop, List.getElem?_take] at hm
    split at hm
    · exact ⟨_, by omega, by omega, hm⟩
    · simp at hm
  · rintro ⟨j, h1, h2, h3⟩
    refine ⟨j - (i + 1 - p), ?_⟩
    rw [List.getElem?_drop, List.getElem?_take]
    have : i + 1 - p + (j - (i + 1 - p)) = j := by omega
    rw [this, if_pos (by omega), h3]

/-- Every float slice is a table. -/
theorem exists_tabF [GoFloat F] (xs : List F) : ∃ x : Nat → F, xs = tab xs.length x :=
  haveI : Inhabited F := ⟨fl 0⟩
  ⟨_, eq_tab xs⟩

/-- Every slice of numbers is a table. -/
theorem exists_tabK {K : Type _} [Field K] (xs : List K) : ∃ x : Nat → K, xs = tab xs.length x :=
  haveI : Inhabited K := ⟨0⟩
  ⟨_, eq_tab xs⟩

theorem window_tab {p i n : Nat} (a : Nat → α) (hi : i < n) :
    window p i (tab n a) = tab (i + 1 - (i + 1 - p)) (fun j => a (i + 1 - p + j)) := by
  rw [window, tab_take a (by omega), tab_drop]

theorem fins_tab {K : Type _} (n : Nat) (a : Nat → K) : fins (tab n a) = tab n (fun i => .fin (a i)) :=
  map_tab _ _ _

theorem fins_inj {K : Type _} {xs ys : List K} (h : fins xs = fins ys) : xs = ys := by
  unfold fins at h
  exact List.map_injective_iff.mpr (fun a b hab => by cases hab; rfl) h

/-- Prefix sum. -/
def psum {K : Type _} [AddCommMonoid K] (a : Nat → K) (k : Nat) : K := ∑ j ∈ Finset.range k, a j

@[simp] theorem psum_zero {K : Type _} [AddCommMonoid K] (a : Nat → K) : psum a 0 = 0 := by
  simp [psum]
theorem psum_succ {K : Type _} [AddCommMonoid K] (a : Nat → K) (k : Nat) :
    psum a (k + 1) = psum a k + a k := by simp [psum, Finset.sum_range_succ]

theorem psum_add {K : Type _} [AddCommMonoid K] (a : Nat → K) (k m : Nat) :
    psum a (k + m) = psum a k + ∑ j ∈ Finset.range m, a (k + j) := by
  simp [psum, Finset.sum_range_add]

theorem sum_window {K : Type _} [Field K] {p i n : Nat} (a : Nat → K) (hi : i < n) :
    (window p i (tab n a)).sum = psum a (i + 1) - psum a (i + 1 - p) := by
  rw [window_tab a hi, sum_tab]
  have h : i + 1 = (i + 1 - p) + (i + 1 - (i + 1 - p)) := by omega
  have := psum_add a (i + 1 - p) (i + 1 - (i + 1 - p))
  rw [← h] at this
  rw [this]; ring

theorem length_window {p i n : Nat} (a : Nat → α) (hi : i < n) :
    (window p i (tab n a)).length = min p (i + 1) := by
  rw [window_tab a hi, tab_length]; omega

end Verif
