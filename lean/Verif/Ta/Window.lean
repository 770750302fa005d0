import Verif.Container.Bst

/-!
# Model of `ta.Max` and `ta.Min` (sliding window extremes)
-/

namespace Verif.Ta
open Verif.Container

variable {F : Type} [GoFloat F]

/-- Loop body shared by `Max` and `Min` (utils/ta/ta.go:733-742 and 754-763); `pick` is `bst.Max` or
`bst.Min`, and the type assertion `.(float64)` fails on nil. -/
def winBody (period : Int) (values : List F) (pick : Bst F → Option F) (i : Int)
    (st : (Bst F × List F) × List F) : Go ((Bst F × List F) × List F) := do
  let ((bst, buffer), result) := st
  let v ← idx values i
  let bst := bst.insert compareFloat64 v
  let bst ← if i ≥ period then do
      let j ← goMod i period
      let old ← idx buffer j
      pure (bst.remove compareFloat64 old).2
    else pure bst
  let j ← goMod i period
  let buffer ← setAt buffer j v
  match pick bst with
  | none => .error .typeAssert
  | some m =>
    let result ← setAt result i m
    pure ((bst, buffer), result)

/-- Models utils/ta/ta.go:727-745 `Max`. -/
def Max (period : Int) (values : List F) : Go (List F) := do
  let result ← mk values.length (fl 0)
  let buffer ← mk period (fl 0)
  let ((_, _), result) ← goFor 0 values.length ((Bst.nil, buffer), result)
    (winBody period values Bst.max)
  pure result

/-- Models utils/ta/ta.go:748-766 `Min`. -/
def Min (period : Int) (values : List F) : Go (List F) := do
  let result ← mk values.length (fl 0)
  let buffer ← mk period (fl 0)
  let ((_, _), result) ← goFor 0 values.length ((Bst.nil, buffer), result)
    (winBody period values Bst.min)
  pure result

/-! ## The ring buffer and the tree, as functions of the number of iterations -/

/-- Content of the ring buffer after `k` iterations. -/
def ring (p : Nat) (x : Nat → F) : Nat → Nat → F
  | 0, _ => fl 0
  | k + 1, j => if j = k % p then x k else ring p x k j

theorem ring_eq {p : Nat} {x : Nat → F} {k j i : Nat} (hik : i < k) (hki : k ≤ i + p)
    (hj : i % p = j) : ring p x k j = x i := by
  induction k with
  | zero => omega
  | succ k ih =>
    unfold ring
    by_cases e : i = k
    · subst e; simp [hj]
    · have hik' : i < k := by omega
      have hne : j ≠ k % p := by
        intro h
        have h1 : i % p = k % p := by rw [hj, h]
        have h2 : (k - i) % p = 0 := Nat.sub_mod_eq_zero_of_mod_eq h1.symm
        have h3 : (k - i) % p = k - i := Nat.mod_eq_of_lt (by omega)
        omega
      simp only [hne, if_false]
      exact ih hik' (by omega)

/-- The search tree after `k` iterations. -/
def winTree (p : Nat) (x : Nat → F) : Nat → Bst F
  | 0 => .nil
  | k + 1 =>
    let t := (winTree p x k).insert compareFloat64 (x k)
    if p ≤ k then (t.remove compareFloat64 (x (k - p))).2 else t

theorem winTree_length {p : Nat} (hp : 0 < p) (x : Nat → F) (k : Nat) :
    0 < (winTree p x (k + 1)).toList.length := by
  induction k with
  | zero =>
    have : ¬ p ≤ 0 := by omega
    simp [winTree, this, Bst.length_insert]
  | succ k ih =>
    rw [winTree]
    split
    · have h1 := Bst.length_remove compareFloat64 (x (k + 1 - p))
        ((winTree p x (k + 1)).insert compareFloat64 (x (k + 1)))
      rw [Bst.length_insert] at h1
      omega
    · rw [Bst.length_insert]; omega

/-- Value written at index `k` by `Max`; the default is never used (`winTree_max`). -/
def maxF (p : Nat) (x : Nat → F) (k : Nat) : F := ((winTree p x (k + 1)).max).getD (x k)
/-- Value written at index `k` by `Min`; the default is never used (`winTree_min`). -/
def minF (p : Nat) (x : Nat → F) (k : Nat) : F := ((winTree p x (k + 1)).min).getD (x k)

theorem winTree_max {p : Nat} (hp : 0 < p) (x : Nat → F) (k : Nat) :
    (winTree p x (k + 1)).max = some (maxF p x k) := by
  obtain ⟨v, hv⟩ := Option.isSome_iff_exists.mp (Bst.max_isSome_of_length (winTree_length hp x k))
  simp [maxF, hv]

theorem winTree_min {p : Nat} (hp : 0 < p) (x : Nat → F) (k : Nat) :
    (winTree p x (k + 1)).min = some (minF p x k) := by
  obtain ⟨v, hv⟩ := Option.isSome_iff_exists.mp (Bst.min_isSome_of_length (winTree_length hp x k))
  simp [minF, hv]

theorem goMod_nat {a b : Nat} (h : 0 < b) : goMod (a : Int) (b : Int) = .ok ((a % b : Nat) : Int) := by
  have h' : (b : Int) ≠ 0 := by omega
  rw [goMod, if_neg h', Int.ofNat_tmod]

theorem winBody_step {p n k : Nat} (hp : 0 < p) (hk : k < n) (x : Nat → F)
    (pick : Bst F → Option F) (f : Nat → F) (z : F)
    (hpick : pick (winTree p x (k + 1)) = some (f k)) :
    winBody (p : Int) (tab n x) pick k ((winTree p x k, tab p (ring p x k)), filled n k f z)
      = .ok ((winTree p x (k + 1), tab p (ring p x (k + 1))), filled n (k + 1) f z) := by
  have hm : k % p < p := Nat.mod_lt _ hp
  have e1 : idx (tab n x) (k : Int) = .ok (x k) := idx_tab hk
  have e2 : goMod (k : Int) (p : Int) = .ok ((k % p : Nat) : Int) := goMod_nat hp
  have e3 : setAt (tab p (ring p x k)) ((k % p : Nat) : Int) (x k)
      = .ok (tab p (ring p x (k + 1))) := by
    rw [setAt_tab hm]; rfl
  have e4 : setAt (filled n k f z) (k : Int) (f k) = .ok (filled n (k + 1) f z) :=
    setAt_filled hk rfl
  have e5 : p ≤ k → idx (tab p (ring p x k)) ((k % p : Nat) : Int) = .ok (x (k - p)) := by
    intro h
    rw [idx_tab hm, ring_eq (i := k - p) (by omega) (by omega)]
    exact (Nat.mod_eq_sub_mod h).symm
  unfold winBody
  by_cases h : p ≤ k
  · have h' : (k : Int) ≥ (p : Int) := by omega
    have ht : winTree p x (k + 1)
        = (((winTree p x k).insert compareFloat64 (x k)).remove compareFloat64 (x (k - p))).2 := by
      simp [winTree, h]
    rw [ht] at hpick ⊢
    simp only [e1, e2, h', e5 h, e3, hpick, e4, ok_bind, pure_eq_ok, if_true]
  · have h' : ¬ (k : Int) ≥ (p : Int) := by omega
    have ht : winTree p x (k + 1) = (winTree p x k).insert compareFloat64 (x k) := by
      simp [winTree, h]
    rw [ht] at hpick ⊢
    simp only [e1, e2, h', e3, hpick, e4, ok_bind, pure_eq_ok, if_false]

/-- `Max` in closed form: no panic, one value per input, independent of later input. -/
theorem Max_tab {p : Nat} (hp : 0 < p) (n : Nat) (x : Nat → F) :
    Max (p : Int) (tab n x) = .ok (tab n (maxF p x)) := by
  unfold Max
  have := goFor_fill (n := n) (z := (fl 0 : F)) (s := (Bst.nil, List.replicate p (fl 0)))
    (body := winBody (p : Int) (tab n x) Bst.max) (maxF p x)
    (fun k => (winTree p x k, tab p (ring p x k)))
    (by simp [winTree, replicate_eq_tab]; rfl)
    (fun k hk => winBody_step hp hk x _ _ _ (winTree_max hp x k))
  simp [this]

/-- `Min` in closed form. -/
theorem Min_tab {p : Nat} (hp : 0 < p) (n : Nat) (x : Nat → F) :
    Min (p : Int) (tab n x) = .ok (tab n (minF p x)) := by
  unfold Min
  have := goFor_fill (n := n) (z := (fl 0 : F)) (s := (Bst.nil, List.replicate p (fl 0)))
    (body := winBody (p : Int) (tab n x) Bst.min) (minF p x)
    (fun k => (winTree p x k, tab p (ring p x k)))
    (by simp [winTree, replicate_eq_tab]; rfl)
    (fun k hk => winBody_step hp hk x _ _ _ (winTree_min hp x k))
  simp [this]

/-! ## Panic cases -/

theorem Max_neg {p : Int} (hp : p < 0) (xs : List F) : Max p xs = .error .makeLen := by
  simp [Max, mk_neg _ hp]

theorem Min_neg {p : Int} (hp : p < 0) (xs : List F) : Min p xs = .error .makeLen := by
  simp [Min, mk_neg _ hp]

theorem winBody_zero (xs : List F) (hne : xs ≠ []) (pick : Bst F → Option F) (st) :
    winBody 0 xs pick 0 st = .error .divZero := by
  obtain ⟨a, l, rfl⟩ := List.exists_cons_of_ne_nil hne
  obtain ⟨⟨t, b⟩, r⟩ := st
  have : idx (a :: l) 0 = .ok a := by simp [idx]
  simp [winBody, this, goMod]

theorem Max_zero (xs : List F) (hne : xs ≠ []) : Max 0 xs = .error .divZero := by
  have hl : (0 : Int) < xs.length := by have := List.length_pos_iff.mpr hne; omega
  have : mk (0 : Int) (fl 0 : F) = .ok [] := by simp [mk]
  simp [Max, this, goFor_error_first hl (winBody_zero xs hne _ _)]

theorem Min_zero (xs : List F) (hne : xs ≠ []) : Min 0 xs = .error .divZero := by
  have hl : (0 : Int) < xs.length := by have := List.length_pos_iff.mpr hne; omega
  have : mk (0 : Int) (fl 0 : F) = .ok [] := by simp [mk]
  simp [Min, this, goFor_error_first hl (winBody_zero xs hne _ _)]

theorem Max_nil {p : Int} (hp : 0 ≤ p) : Max p ([] : List F) = .ok [] := by
  simp [Max, mk, hp, goFor_empty]

theorem Min_nil {p : Int} (hp : 0 ≤ p) : Min p ([] : List F) = .ok [] := by
  simp [Min, mk, hp, goFor_empty]

/-! ## Order content of the tree -/

section order
variable {L : Type _} [LinearOrder L] (o : OrdKey F L)

/-- Indices of the window ending just before `k`. -/
def winIdx (p k : Nat) : List Nat := List.range' (k - p) (Nat.min k p)

theorem mem_winIdx {p k j : Nat} : j ∈ winIdx p k ↔ k ≤ j + p ∧ j < k := by
  unfold winIdx
  rw [List.mem_range'_1]
  have : Nat.min k p = k - (k - p) := by
    show min k p = _; omega
  omega

theorem winTree_keys {p : Nat} (hp : 0 < p) {x : Nat → F} {n : Nat} (hg : ∀ i < n, o.good (x i)) :
    ∀ k ≤ n, Bst.Inv (cmpFloat o) (winTree p x k) ∧
      (winTree p x k).keys (cmpFloat o)
        = (((winIdx p k).map (fun j => o.key (x j)) : List L) : Multiset L) := by
  intro k hk
  induction k with
  | zero => exact ⟨Bst.Inv.nil _, by simp [winTree, winIdx, Bst.keys, Bst.toList]⟩
  | succ k ih =>
    obtain ⟨hi, hkeys⟩ := ih (by omega)
    have hgk : (cmpFloat o).good (x k) := hg k (by omega)
    have hi' := hi.insert hgk
    have hk' : ((winTree p x k).insert compareFloat64 (x k)).keys (cmpFloat o)
        = o.key (x k) ::ₘ (winTree p x k).keys (cmpFloat o) := Bst.keys_insert (c := cmpFloat o) _ _
    rw [winTree]
    by_cases h : p ≤ k
    · simp only [h, if_true]
      have hgo : (cmpFloat o).good (x (k - p)) := hg (k - p) (by omega)
      refine ⟨hi'.remove hgo, ?_⟩
      rw [(Bst.keys_remove hi' hgo).1, hk', hkeys]
      show Multiset.erase _ (o.key (x (k - p))) = _
      have e1 : winIdx p k = (k - p) :: List.range' (k - p + 1) (p - 1) := by
        unfold winIdx
        have : Nat.min k p = (p - 1) + 1 := by show min k p = _; omega
        rw [this, List.range'_succ]
      have e2 : winIdx p (k + 1) = List.range' (k - p + 1) (p - 1) ++ [k] := by
        unfold winIdx
        have h1 : Nat.min (k + 1) p = (p - 1) + 1 := by show min (k+1) p = _; omega
        have h2 : k + 1 - p = k - p + 1 := by omega
        rw [h1, h2, List.range'_concat]
        congr 2; omega
      rw [e1, e2, List.map_cons, ← Multiset.cons_coe, Multiset.cons_swap,
        Multiset.erase_cons_head, List.map_append, ← Multiset.coe_add, Multiset.add_comm]
      rfl
    · simp only [h, if_false]
      refine ⟨hi', ?_⟩
      rw [hk', hkeys]
      have e1 : winIdx p k = List.range' 0 k := by
        unfold winIdx
        have h1 : Nat.min k p = k := by show min k p = _; omega
        have h2 : k - p = 0 := by omega
        rw [h1, h2]
      have e2 : winIdx p (k + 1) = List.range' 0 k ++ [k] := by
        unfold winIdx
        have h1 : Nat.min (k + 1) p = k + 1 := by show min (k+1) p = _; omega
        have h2 : k + 1 - p = 0 := by omega
        rw [h1, h2, List.range'_concat]; simp
      rw [e1, e2, List.map_append, ← Multiset.coe_add, Multiset.add_comm]
      rfl

/-- The value reported by `Max` at index `k` has the largest key of the window. -/
theorem maxF_spec {p : Nat} (hp : 0 < p) {x : Nat → F} {k : Nat} (hg : ∀ i ≤ k, o.good (x i)) :
    o.good (maxF p x k) ∧
    (∃ j, k + 1 ≤ j + p ∧ j ≤ k ∧ o.key (maxF p x k) = o.key (x j)) ∧
    ∀ j, k + 1 ≤ j + p → j ≤ k → o.key (x j) ≤ o.key (maxF p x k) := by
  obtain ⟨hi, hkeys⟩ := winTree_keys o hp (x := x) (n := k + 1) (fun i hi => hg i (by omega))
    (k + 1) le_rfl
  obtain ⟨hgm, hmem, hle⟩ := (Bst.max_spec hi).2 _ (winTree_max hp x k)
  refine ⟨hgm, ?_, ?_⟩
  · have : o.key (maxF p x k) ∈ (winTree p x (k + 1)).keys (cmpFloat o) := by
      simp only [Bst.keys, Multiset.mem_coe, List.mem_map]; exact ⟨_, hmem, rfl⟩
    rw [hkeys] at this
    simp only [Multiset.mem_coe, List.mem_map, mem_winIdx] at this
    obtain ⟨j, ⟨h1, h2⟩, h3⟩ := this
    exact ⟨j, h1, by omega, h3.symm⟩
  · intro j h1 h2
    apply hle
    rw [hkeys]
    simp only [Multiset.mem_coe, List.mem_map, mem_winIdx]
    exact ⟨j, ⟨h1, by omega⟩, rfl⟩

/-- The value reported by `Min` at index `k` has the smallest key of the window. -/
theorem minF_spec {p : Nat} (hp : 0 < p) {x : Nat → F} {k : Nat} (hg : ∀ i ≤ k, o.good (x i)) :
    o.good (minF p x k) ∧
    (∃ j, k + 1 ≤ j + p ∧ j ≤ k ∧ o.key (minF p x k) = o.key (x j)) ∧
    ∀ j, k + 1 ≤ j + p → j ≤ k → o.key (minF p x k) ≤ o.key (x j) := by
  obtain ⟨hi, hkeys⟩ := winTree_keys o hp (x := x) (n := k + 1) (fun i hi => hg i (by omega))
    (k + 1) le_rfl
  obtain ⟨hgm, hmem, hle⟩ := (Bst.min_spec hi).2 _ (winTree_min hp x k)
  refine ⟨hgm, ?_, ?_⟩
  · have : o.key (minF p x k) ∈ (winTree p x (k + 1)).keys (cmpFloat o) := by
      simp only [Bst.keys, Multiset.mem_coe, List.mem_map]; exact ⟨_, hmem, rfl⟩
    rw [hkeys] at this
    simp only [Multiset.mem_coe, List.mem_map, mem_winIdx] at this
    obtain ⟨j, ⟨h1, h2⟩, h3⟩ := this
    exact ⟨j, h1, by omega, h3.symm⟩
  · intro j h1 h2
    apply hle
    rw [hkeys]
    simp only [Multiset.mem_coe, List.mem_map, mem_winIdx]
    exact ⟨j, ⟨h1, by omega⟩, rfl⟩

end order

end Verif.Ta
