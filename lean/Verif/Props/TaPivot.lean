import Verif.Props.Containers
import Verif.Ta.Exact

/-!
# C32 - C34: pivots, highest / lowest, neighbourhood extremes
-/

set_option linter.unusedSectionVars false

namespace Verif.Props
open Verif Verif.Ta Verif.Container GoFloat XF

variable {F : Type} [GoFloat F] {L : Type} [LinearOrder L]

/-! ## C32 -/

theorem pivotTree_spec (o : OrdKey F L) (l r : Nat) (x : Nat → F) (i : Nat)
    (hg : ∀ j ≤ l + r, o.good (x (i - r - l + j))) :
    (∀ v, (pivotTree l r x i).max = some v → o.good v ∧
      (∃ j ≤ l + r, o.key (x (i - r - l + j)) = o.key v) ∧
      ∀ j ≤ l + r, o.key (x (i - r - l + j)) ≤ o.key v) ∧
    (∀ v, (pivotTree l r x i).min = some v → o.good v ∧
      (∃ j ≤ l + r, o.key (x (i - r - l + j)) = o.key v) ∧
      ∀ j ≤ l + r, o.key v ≤ o.key (x (i - r - l + j))) := by
  have hgl : ∀ v ∈ tab (l + r + 1) (fun j => x (i - r - l + j)), (cmpFloat o).good v := by
    intro v hv
    obtain ⟨j, hj⟩ := List.mem_iff_getElem?.mp hv
    rw [tab_getElem?] at hj
    split at hj <;> simp at hj
    subst hj; exact hg j (by omega)
  obtain ⟨hi, hk⟩ := inserts_keys (c := cmpFloat o) _ hgl Bst.nil (Bst.Inv.nil _)
  have hmem : ∀ k, k ∈ (pivotTree l r x i).keys (cmpFloat o)
      ↔ ∃ j ≤ l + r, o.key (x (i - r - l + j)) = k := by
    intro k
    have : (pivotTree l r x i).keys (cmpFloat o)
        = (((tab (l + r + 1) fun j => x (i - r - l + j)).map o.key : List L) : Multiset L) := by
      rw [pivotTree]
      have h0 : (Bst.nil : Bst F).keys (cmpFloat o) = 0 := rfl
      rw [h0, add_zero] at hk
      exact hk
    rw [this, Multiset.mem_coe, map_tab, List.mem_iff_getElem?]
    constructor
    · rintro ⟨j, hj⟩
      rw [tab_getElem?] at hj
      split at hj <;> simp at hj
      exact ⟨j, by omega, hj⟩
    · rintro ⟨j, hj, e⟩
      exact ⟨j, by rw [tab_getElem?_lt (by omega), e]⟩
  have hin : ∀ v ∈ (pivotTree l r x i).toList,
      o.key v ∈ (pivotTree l r x i).keys (cmpFloat o) := fun v hv =>
    Multiset.mem_coe.mpr (List.mem_map.mpr ⟨v, hv, rfl⟩)
  constructor
  · intro v hv
    obtain ⟨h1, h2, h3⟩ := (Bst.max_spec hi).2 v hv
    exact ⟨h1, (hmem _).mp (hin v h2), fun j hj => h3 _ ((hmem _).mpr ⟨j, hj, rfl⟩)⟩
  · intro v hv
    obtain ⟨h1, h2, h3⟩ := (Bst.min_spec hi).2 v hv
    exact ⟨h1, (hmem _).mp (hin v h2), fun j hj => h3 _ ((hmem _).mpr ⟨j, hj, rfl⟩)⟩

/-- Windows of `l + r + 1` values, by position. -/
theorem mem_pivotWindow {l r i n : Nat} {x : Nat → F} (hi : i < n) (hlr : l + r ≤ i) {w : F} :
    w ∈ window (l + r + 1) i (tab n x) ↔ ∃ j ≤ l + r, w = x (i - r - l + j) := by
  rw [mem_window]
  constructor
  · rintro ⟨j, h1, h2, h3⟩
    rw [tab_getElem?_lt (by omega)] at h3
    refine ⟨j - (i - r - l), by omega, ?_⟩
    rw [show i - r - l + (j - (i - r - l)) = j by omega]
    exact (Option.some.inj h3).symm
  · rintro ⟨j, h1, rfl⟩
    exact ⟨_, by omega, by omega, tab_getElem?_lt (by omega)⟩

/-- **C32 (PivotHigh).** For NaN-free series and `left, right >= 0`: one entry per value, 0 at the first
`left + right` entries; entry `i` after that equals the value `right` bars earlier when that value is
a maximum of the window of `left + 1 + right` values ending at `i`, and is 0 otherwise. -/
theorem C32_pivot_high (o : OrdKey F L) (l r : Nat) (xs : List F) (hg : ∀ v ∈ xs, o.good v) :
    ∃ ps, PivotHigh xs l r = .ok ps ∧ ps.length = xs.length ∧
      (∀ i p, i < l + r → ps[i]? = some p → p = fl 0) ∧
      ∀ i p c, l + r ≤ i → ps[i]? = some p → xs[i - r]? = some c →
        ((∀ w ∈ window (l + r + 1) i xs, o.key w ≤ o.key c) → o.key p = o.key c) ∧
        (¬ (∀ w ∈ window (l + r + 1) i xs, o.key w ≤ o.key c) → p = fl 0) := by
  obtain ⟨x, hx⟩ := exists_tabF xs
  have hgood : ∀ j < xs.length, o.good (x j) := fun j hj => by
    apply hg; rw [hx]; exact List.mem_of_getElem? (tab_getElem?_lt hj)
  generalize xs.length = n at hx hgood
  subst hx
  refine ⟨_, PivotHigh_tab n l r x, by simp, ?_, ?_⟩
  · intro i p hi hp
    rw [tab_getElem?] at hp
    split at hp <;> simp at hp
    rw [← hp, pivotHighF, if_pos hi]
  · intro i p c hi hp hc
    rw [tab_getElem?] at hp
    split at hp <;> simp at hp
    next hin =>
    rw [tab_getElem?_lt (by omega)] at hc
    cases hc
    subst hp
    obtain ⟨m, hm⟩ := Option.isSome_iff_exists.mp (Bst.max_isSome_of_length (pivotTree_length l r x i))
    obtain ⟨hgm, ⟨j, hj, hjk⟩, hle⟩ := (pivotTree_spec o l r x i
      (fun j hj => hgood _ (by omega))).1 m hm
    have hgc := hgood (i - r) (by omega)
    have heq := o.eq_iff (a := x (i - r)) (b := m) hgc hgm
    simp only [pivotHighF, show ¬ i < l + r by omega, if_false, hm]
    have hwin : (∀ w ∈ window (l + r + 1) i (tab n x), o.key w ≤ o.key (x (i - r)))
        ↔ o.key (x (i - r)) = o.key m := by
      constructor
      · intro h
        refine le_antisymm ?_ ?_
        · have := hle l (by omega)
          rwa [show i - r - l + l = i - r by omega] at this
        · rw [← hjk]; exact h _ ((mem_pivotWindow hin hi).mpr ⟨j, hj, rfl⟩)
      · intro h w hw
        obtain ⟨j, hj, rfl⟩ := (mem_pivotWindow hin hi).mp hw
        rw [h]; exact hle j hj
    rw [hwin]
    constructor
    · intro h
      rw [if_pos (heq.mpr h), h]
    · intro h
      rw [if_neg (fun e => h (heq.mp e))]

/-- **C32 (PivotLow).** The dual statement. -/
theorem C32_pivot_low (o : OrdKey F L) (l r : Nat) (xs : List F) (hg : ∀ v ∈ xs, o.good v) :
    ∃ ps, PivotLow xs l r = .ok ps ∧ ps.length = xs.length ∧
      (∀ i p, i < l + r → ps[i]? = some p → p = fl 0) ∧
      ∀ i p c, l + r ≤ i → ps[i]? = some p → xs[i - r]? = some c →
        ((∀ w ∈ window (l + r + 1) i xs, o.key c ≤ o.key w) → o.key p = o.key c) ∧
        (¬ (∀ w ∈ window (l + r + 1) i xs, o.key c ≤ o.key w) → p = fl 0) := by
  obtain ⟨x, hx⟩ := exists_tabF xs
  have hgood : ∀ j < xs.length, o.good (x j) := fun j hj => by
    apply hg; rw [hx]; exact List.mem_of_getElem? (tab_getElem?_lt hj)
  generalize xs.length = n at hx hgood
  subst hx
  refine ⟨_, PivotLow_tab n l r x, by simp, ?_, ?_⟩
  · intro i p hi hp
    rw [tab_getElem?] at hp
    split at hp <;> simp at hp
    rw [← hp, pivotLowF, if_pos hi]
  · intro i p c hi hp hc
    rw [tab_getElem?] at hp
    split at hp <;> simp at hp
    next hin =>
    rw [tab_getElem?_lt (by omega)] at hc
    cases hc
    subst hp
    obtain ⟨m, hm⟩ := Option.isSome_iff_exists.mp (Bst.min_isSome_of_length (pivotTree_length l r x i))
    obtain ⟨hgm, ⟨j, hj, hjk⟩, hle⟩ := (pivotTree_spec o l r x i
      (fun j hj => hgood _ (by omega))).2 m hm
    have hgc := hgood (i - r) (by omega)
    have heq := o.eq_iff (a := x (i - r)) (b := m) hgc hgm
    simp only [pivotLowF, show ¬ i < l + r by omega, if_false, hm]
    have hwin : (∀ w ∈ window (l + r + 1) i (tab n x), o.key (x (i - r)) ≤ o.key w)
        ↔ o.key (x (i - r)) = o.key m := by
      constructor
      · intro h
        refine le_antisymm ?_ ?_
        · rw [← hjk]; exact h _ ((mem_pivotWindow hin hi).mpr ⟨j, hj, rfl⟩)
        · have := hle l (by omega)
          rwa [show i - r - l + l = i - r by omega] at this
      · intro h w hw
        obtain ⟨j, hj, rfl⟩ := (mem_pivotWindow hin hi).mp hw
        rw [h]; exact hle j hj
    rw [hwin]
    constructor
    · intro h
      rw [if_pos (heq.mpr h), h]
    · intro h
      rw [if_neg (fun e => h (heq.mp e))]

example : PivotHigh (fins [1, 3, 2, 5, 4] : List (XF ℚ)) 1 1 = .ok (fins [0, 0, 3, 0, 5]) := by
  decide +kernel
example : ∀ v ∈ (fins [1, 3, 2, 5, 4] : List (XF ℚ)), XF.ordKey.good v := by
  simp [fins, XF.ordKey]

/-! ## C33 -/

/-- One step of the scan for a maximum. -/
theorem scanMax_step (o : OrdKey F L) {v w : F} (hv : o.good v) (hw : o.good w) :
    ∃ u, (if v >. w then (.ok v : Go F) else .ok w) = .ok u ∧ (u = v ∨ u = w) ∧ o.good u ∧
      o.key v ≤ o.key u ∧ o.key w ≤ o.key u := by
  by_cases h : (w <. v) = true
  · exact ⟨v, by rw [GoFloat.gt, if_pos h], .inl rfl, hv, le_refl _, ((o.lt_iff hw hv).mp h).le⟩
  · exact ⟨w, by rw [GoFloat.gt, if_neg h], .inr rfl, hw,
      not_lt.mp fun h' => h ((o.lt_iff hw hv).mpr h'), le_refl _⟩

/-- One step of the scan for a minimum. -/
theorem scanMin_step (o : OrdKey F L) {v w : F} (hv : o.good v) (hw : o.good w) :
    ∃ u, (if v <. w then (.ok v : Go F) else .ok w) = .ok u ∧ (u = v ∨ u = w) ∧ o.good u ∧
      o.key u ≤ o.key v ∧ o.key u ≤ o.key w := by
  by_cases h : (v <. w) = true
  · exact ⟨v, by rw [if_pos h], .inl rfl, hv, le_refl _, ((o.lt_iff hv hw).mp h).le⟩
  · exact ⟨w, by rw [if_neg h], .inr rfl, hw,
      not_lt.mp fun h' => h ((o.lt_iff hv hw).mpr h'), le_refl _⟩

/-- The last `n` values of a slice. -/
def lastN {α : Type} (n : Nat) (xs : List α) : List α := xs.drop (xs.length - n)

theorem mem_lastN_tab {n m : Nat} {x : Nat → F} {w : F} :
    w ∈ lastN m (tab n x) ↔ ∃ d, d < m ∧ d < n ∧ w = x (n - 1 - d) := by
  rw [lastN, tab_length, tab_drop, List.mem_iff_getElem?]
  constructor
  · rintro ⟨j, hj⟩
    rw [tab_getElem?] at hj
    split at hj <;> simp at hj
    next h =>
    refine ⟨n - 1 - (n - m + j), by omega, by omega, ?_⟩
    rw [← hj, show n - 1 - (n - 1 - (n - m + j)) = n - m + j by omega]
  · rintro ⟨d, h1, h2, rfl⟩
    refine ⟨n - 1 - d - (n - m), ?_⟩
    rw [tab_getElem?_lt (by omega), show n - m + (n - 1 - d - (n - m)) = n - 1 - d by omega]

/-- **C33 (Highest).** `Highest(xs, n)` panics exactly on an empty slice, for every `n`. For NaN-free
`xs` and `n >= 1` it is one of the last `n` values (of all values if there are fewer) and no smaller
than any of them. -/
theorem C33_highest (o : OrdKey F L) (xs : List F) (hg : ∀ v ∈ xs, o.good v) :
    (∀ n : Int, (∃ e, Highest xs n = .error e) ↔ xs = []) ∧
    ∀ n : Nat, 1 ≤ n → ∀ v, Highest xs n = .ok v →
      v ∈ lastN n xs ∧ ∀ w ∈ lastN n xs, o.key w ≤ o.key v := by
  by_cases hne : xs = []
  · subst hne
    have : ∀ n : Int, Highest ([] : List F) n = .error .index := fun n => rfl
    refine ⟨fun n => ⟨fun _ => rfl, fun _ => ⟨_, this n⟩⟩, fun n _ v hv => ?_⟩
    rw [this] at hv; cases hv
  obtain ⟨x, hx⟩ := exists_tab xs hne
  have hlen := List.length_pos_of_ne_nil hne
  have hgood : ∀ j < xs.length, o.good (x j) := fun j hj => by
    apply hg; rw [hx]; exact List.mem_of_getElem? (tab_getElem?_lt hj)
  generalize xs.length = N at hx hgood hlen
  subst hx
  have main : ∀ n : Int, ∃ v, Highest (tab N x) n = .ok v ∧ (1 ≤ n → ∀ m : Nat, n = m →
      v ∈ lastN m (tab N x) ∧ ∀ w ∈ lastN m (tab N x), o.key w ≤ o.key v) := by
    intro n
    have e1 : (N : Int) - 1 = ((N - 1 : Nat) : Int) := by omega
    unfold Highest
    rw [tab_length]
    simp only [e1, idx_tab (show N - 1 < N by omega), ok_bind]
    by_cases hn : n ≤ 0
    · rw [goFor_empty (by omega)]
      exact ⟨_, rfl, fun h => absurd h (by omega)⟩
    · obtain ⟨m, rfl⟩ : ∃ m : Nat, n = m := ⟨n.toNat, by omega⟩
      have e2 : min (m : Int) (N : Int) = ((min m N : Nat) : Int) := by omega
      rw [e2]
      obtain ⟨v, hv, hP⟩ := goFor_inv (n := min m N) (s := x (N - 1))
        (body := fun (d : Int) (result : F) => do
          let v ← idx (tab N x) (((N - 1 : Nat) : Int) - d)
          if v >. result then pure v else pure result)
        (fun k u => o.good u ∧ (∃ d, d < max 1 k ∧ d < N ∧ u = x (N - 1 - d)) ∧
          ∀ d, d < k → o.key (x (N - 1 - d)) ≤ o.key u)
        ⟨hgood _ (by omega), ⟨0, by omega, by omega, rfl⟩, fun d hd => absurd hd (by omega)⟩
        (by
          rintro k u hk ⟨h1, ⟨d, h2, h2', h3⟩, h4⟩
          have e3 : ((N - 1 : Nat) : Int) - (k : Int) = ((N - 1 - k : Nat) : Int) := by omega
          simp only [e3, idx_tab (show N - 1 - k < N by omega), ok_bind, pure_eq_ok]
          obtain ⟨w, hw, hor, hgw, hle1, hle2⟩ := scanMax_step o (hgood (N - 1 - k) (by omega)) h1
          refine ⟨w, hw, hgw, ?_, ?_⟩
          · rcases hor with rfl | rfl
            · exact ⟨k, by omega, by omega, rfl⟩
            · exact ⟨d, by omega, h2', h3⟩
          · intro d' hd'
            rcases Nat.lt_succ_iff_lt_or_eq.mp hd' with h | h
            · exact le_trans (h4 d' h) hle2
            · rw [h]; exact hle1)
      refine ⟨v, hv, fun _ m' hm' => ?_⟩
      have : m' = m := by omega
      subst this
      obtain ⟨_, ⟨d, h2, h2', h3⟩, h4⟩ := hP
      refine ⟨mem_lastN_tab.mpr ⟨d, by omega, h2', h3⟩, ?_⟩
      intro w hw
      obtain ⟨d', h5, h6, rfl⟩ := mem_lastN_tab.mp hw
      exact h4 d' (by omega)
  refine ⟨fun n => ⟨?_, fun h => absurd h hne⟩, ?_⟩
  · rintro ⟨e, he⟩
    obtain ⟨v, hv, _⟩ := main n
    rw [hv] at he; cases he
  · intro n hn v hv
    obtain ⟨u, hu, hP⟩ := main n
    rw [hu] at hv; cases hv
    exact hP (by omega) n rfl

/-- **C33 (Lowest).** The dual statement. -/
theorem C33_lowest (o : OrdKey F L) (xs : List F) (hg : ∀ v ∈ xs, o.good v) :
    (∀ n : Int, (∃ e, Lowest xs n = .error e) ↔ xs = []) ∧
    ∀ n : Nat, 1 ≤ n → ∀ v, Lowest xs n = .ok v →
      v ∈ lastN n xs ∧ ∀ w ∈ lastN n xs, o.key v ≤ o.key w := by
  by_cases hne : xs = []
  · subst hne
    have : ∀ n : Int, Lowest ([] : List F) n = .error .index := fun n => rfl
    refine ⟨fun n => ⟨fun _ => rfl, fun _ => ⟨_, this n⟩⟩, fun n _ v hv => ?_⟩
    rw [this] at hv; cases hv
  obtain ⟨x, hx⟩ := exists_tab xs hne
  have hlen := List.length_pos_of_ne_nil hne
  have hgood : ∀ j < xs.length, o.good (x j) := fun j hj => by
    apply hg; rw [hx]; exact List.mem_of_getElem? (tab_getElem?_lt hj)
  generalize xs.length = N at hx hgood hlen
  subst hx
  have main : ∀ n : Int, ∃ v, Lowest (tab N x) n = .ok v ∧ (1 ≤ n → ∀ m : Nat, n = m →
      v ∈ lastN m (tab N x) ∧ ∀ w ∈ lastN m (tab N x), o.key v ≤ o.key w) := by
    intro n
    have e1 : (N : Int) - 1 = ((N - 1 : Nat) : Int) := by omega
    unfold Lowest
    rw [tab_length]
    simp only [e1, idx_tab (show N - 1 < N by omega), ok_bind]
    by_cases hn : n ≤ 0
    · rw [goFor_empty (by omega)]
      exact ⟨_, rfl, fun h => absurd h (by omega)⟩
    · obtain ⟨m, rfl⟩ : ∃ m : Nat, n = m := ⟨n.toNat, by omega⟩
      have e2 : min (m : Int) (N : Int) = ((min m N : Nat) : Int) := by omega
      rw [e2]
      obtain ⟨v, hv, hP⟩ := goFor_inv (n := min m N) (s := x (N - 1))
        (body := fun (d : Int) (result : F) => do
          let v ← idx (tab N x) (((N - 1 : Nat) : Int) - d)
          if v <. result then pure v else pure result)
        (fun k u => o.good u ∧ (∃ d, d < max 1 k ∧ d < N ∧ u = x (N - 1 - d)) ∧
          ∀ d, d < k → o.key u ≤ o.key (x (N - 1 - d)))
        ⟨hgood _ (by omega), ⟨0, by omega, by omega, rfl⟩, fun d hd => absurd hd (by omega)⟩
        (by
          rintro k u hk ⟨h1, ⟨d, h2, h2', h3⟩, h4⟩
          have e3 : ((N - 1 : Nat) : Int) - (k : Int) = ((N - 1 - k : Nat) : Int) := by omega
          simp only [e3, idx_tab (show N - 1 - k < N by omega), ok_bind, pure_eq_ok]
          obtain ⟨w, hw, hor, hgw, hle1, hle2⟩ := scanMin_step o (hgood (N - 1 - k) (by omega)) h1
          refine ⟨w, hw, hgw, ?_, ?_⟩
          · rcases hor with rfl | rfl
            · exact ⟨k, by omega, by omega, rfl⟩
            · exact ⟨d, by omega, h2', h3⟩
          · intro d' hd'
            rcases Nat.lt_succ_iff_lt_or_eq.mp hd' with h | h
            · exact le_trans hle2 (h4 d' h)
            · rw [h]; exact hle1)
      refine ⟨v, hv, fun _ m' hm' => ?_⟩
      have : m' = m := by omega
      subst this
      obtain ⟨_, ⟨d, h2, h2', h3⟩, h4⟩ := hP
      refine ⟨mem_lastN_tab.mpr ⟨d, by omega, h2', h3⟩, ?_⟩
      intro w hw
      obtain ⟨d', h5, h6, rfl⟩ := mem_lastN_tab.mp hw
      exact h4 d' (by omega)
  refine ⟨fun n => ⟨?_, fun h => absurd h hne⟩, ?_⟩
  · rintro ⟨e, he⟩
    obtain ⟨v, hv, _⟩ := main n
    rw [hv] at he; cases he
  · intro n hn v hv
    obtain ⟨u, hu, hP⟩ := main n
    rw [hu] at hv; cases hv
    exact hP (by omega) n rfl

example : Highest (fins [9, 1, 4, 3] : List (XF ℚ)) 3 = .ok (.fin 4) ∧
    Lowest (fins [0, 2, 4, 3] : List (XF ℚ)) 3 = .ok (.fin 2) ∧
    Highest (fins [2, 1] : List (XF ℚ)) 5 = .ok (.fin 2) := by decide +kernel

/-! ## C34 -/

/-- The scan of `PivotMax`/`PivotMin` in one direction (`pos i` is the `i`-th position visited). -/
theorem scan_max (o : OrdKey F L) (xs : List F) (hg : ∀ v ∈ xs, o.good v) (v0 : F) (p0 : Int)
    (hv0 : o.good v0) (cnt : Nat) (pos : Nat → Nat) (hpos : ∀ i < cnt, pos i < xs.length)
    (body : Int → F × Int → Go (F × Int))
    (hbody : ∀ (i : Nat) s, i < cnt → body i s = (do
      let v ← idx xs ((pos i : Nat) : Int)
      if v >. s.1 then pure (v, ((pos i : Nat) : Int)) else pure s)) :
    ∃ v p, goFor 0 cnt (v0, p0) body = .ok (v, p) ∧ o.good v ∧ o.key v0 ≤ o.key v ∧
      (∀ i < cnt, ∀ w, xs[pos i]? = some w → o.key w ≤ o.key v) ∧
      ((v = v0 ∧ p = p0) ∨ ∃ i < cnt, p = (pos i : Nat) ∧ xs[pos i]? = some v) := by
  obtain ⟨⟨v, p⟩, hs, h1, h2, h3, h4⟩ := goFor_inv (n := cnt) (s := (v0, p0)) (body := body)
    (fun k s => o.good s.1 ∧ o.key v0 ≤ o.key s.1 ∧
      (∀ i < k, ∀ w, xs[pos i]? = some w → o.key w ≤ o.key s.1) ∧
      ((s.1 = v0 ∧ s.2 = p0) ∨ ∃ i < cnt, s.2 = (pos i : Nat) ∧ xs[pos i]? = some s.1))
    ⟨hv0, le_refl _, fun i hi => absurd hi (by omega), .inl ⟨rfl, rfl⟩⟩
    (by
      rintro k ⟨v, p⟩ hk ⟨h1, h2, h3, h4⟩
      have hlt := hpos k hk
      have hget : xs[pos k]? = some xs[pos k] := List.getElem?_eq_getElem hlt
      have hgw : o.good xs[pos k] := hg _ (List.getElem_mem _)
      rw [hbody k _ hk, idx_of_getElem? hget]
      simp only [ok_bind, pure_eq_ok]
      by_cases h : (v <. xs[pos k]) = true
      · have hlt' := (o.lt_iff h1 hgw).mp h
        rw [GoFloat.gt, if_pos h]
        refine ⟨_, rfl, hgw, le_trans h2 hlt'.le, ?_, .inr ⟨k, hk, rfl, hget⟩⟩
        intro i hi w hw
        rcases Nat.lt_succ_iff_lt_or_eq.mp hi with h' | h'
        · exact le_trans (h3 i h' w hw) hlt'.le
        · subst h'; rw [hget] at hw; cases hw; exact le_refl _
      · rw [GoFloat.gt, if_neg h]
        refine ⟨_, rfl, h1, h2, ?_, h4⟩
        intro i hi w hw
        rcases Nat.lt_succ_iff_lt_or_eq.mp hi with h' | h'
        · exact h3 i h' w hw
        · subst h'; rw [hget] at hw; cases hw
          exact not_lt.mp fun h' => h ((o.lt_iff h1 hgw).mpr h'))
  exact ⟨v, p, hs, h1, h2, h3, h4⟩

/-- The scan for a minimum. -/
theorem scan_min (o : OrdKey F L) (xs : List F) (hg : ∀ v ∈ xs, o.good v) (v0 : F) (p0 : Int)
    (hv0 : o.good v0) (cnt : Nat) (pos : Nat → Nat) (hpos : ∀ i < cnt, pos i < xs.length)
    (body : Int → F × Int → Go (F × Int))
    (hbody : ∀ (i : Nat) s, i < cnt → body i s = (do
      let v ← idx xs ((pos i : Nat) : Int)
      if v <. s.1 then pure (v, ((pos i : Nat) : Int)) else pure s)) :
    ∃ v p, goFor 0 cnt (v0, p0) body = .ok (v, p) ∧ o.good v ∧ o.key v ≤ o.key v0 ∧
      (∀ i < cnt, ∀ w, xs[pos i]? = some w → o.key v ≤ o.key w) ∧
      ((v = v0 ∧ p = p0) ∨ ∃ i < cnt, p = (pos i : Nat) ∧ xs[pos i]? = some v) := by
  obtain ⟨⟨v, p⟩, hs, h1, h2, h3, h4⟩ := goFor_inv (n := cnt) (s := (v0, p0)) (body := body)
    (fun k s => o.good s.1 ∧ o.key s.1 ≤ o.key v0 ∧
      (∀ i < k, ∀ w, xs[pos i]? = some w → o.key s.1 ≤ o.key w) ∧
      ((s.1 = v0 ∧ s.2 = p0) ∨ ∃ i < cnt, s.2 = (pos i : Nat) ∧ xs[pos i]? = some s.1))
    ⟨hv0, le_refl _, fun i hi => absurd hi (by omega), .inl ⟨rfl, rfl⟩⟩
    (by
      rintro k ⟨v, p⟩ hk ⟨h1, h2, h3, h4⟩
      have hlt := hpos k hk
      have hget : xs[pos k]? = some xs[pos k] := List.getElem?_eq_getElem hlt
      have hgw : o.good xs[pos k] := hg _ (List.getElem_mem _)
      rw [hbody k _ hk, idx_of_getElem? hget]
      simp only [ok_bind, pure_eq_ok]
      by_cases h : (xs[pos k] <. v) = true
      · have hlt' := (o.lt_iff hgw h1).mp h
        rw [if_pos h]
        refine ⟨_, rfl, hgw, le_trans hlt'.le h2, ?_, .inr ⟨k, hk, rfl, hget⟩⟩
        intro i hi w hw
        rcases Nat.lt_succ_iff_lt_or_eq.mp hi with h' | h'
        · exact le_trans hlt'.le (h3 i h' w hw)
        · subst h'; rw [hget] at hw; cases hw; exact le_refl _
      · rw [if_neg h]
        refine ⟨_, rfl, h1, h2, ?_, h4⟩
        intro i hi w hw
        rcases Nat.lt_succ_iff_lt_or_eq.mp hi with h' | h'
        · exact h3 i h' w hw
        · subst h'; rw [hget] at hw; cases hw
          exact not_lt.mp fun h' => h ((o.lt_iff hgw h1).mpr h'))
  exact ⟨v, p, hs, h1, h2, h3, h4⟩

/-- A position within `left` places before and `right` places after `index`. -/
def near (index left right j : Nat) : Prop := index ≤ j + left ∧ j ≤ index + right

/-- No value to the left of the index equals (in order) a value to its right while nothing in the
neighbourhood lies strictly beyond them: the extreme is not attained on both sides at once. -/
def NoTieMax (o : OrdKey F L) (xs : List F) (index left right : Nat) : Prop :=
  ∀ a b va vb, near index left right a → near index left right b → a < index → index < b →
    xs[a]? = some va → xs[b]? = some vb → o.key va = o.key vb →
    ∃ k w, near index left right k ∧ xs[k]? = some w ∧ o.key va < o.key w

/-- The dual of `NoTieMax`. -/
def NoTieMin (o : OrdKey F L) (xs : List F) (index left right : Nat) : Prop :=
  ∀ a b va vb, near index left right a → near index left right b → a < index → index < b →
    xs[a]? = some va → xs[b]? = some vb → o.key va = o.key vb →
    ∃ k w, near index left right k ∧ xs[k]? = some w ∧ o.key w < o.key va

/-- **C34 (partial, PivotMax).** For NaN-free, non-negative series and a valid index: `PivotMax`
returns a position near the index, inside the slice, together with its value; and that value is the
largest of the neighbourhood unless the maximum is attained on both sides of the index.
Missing from C34: negative values and such ties; both are refuted below. -/
theorem C34_pivot_max_partial (o : OrdKey F L) (xs : List F) (hg : ∀ v ∈ xs, o.good v)
    (h0 : o.good (fl 0)) (hnn : ∀ v ∈ xs, o.key (fl 0) ≤ o.key v)
    (index left right : Nat) (hi : index < xs.length) :
    ∃ v j, PivotMax xs index left right = .ok (v, ((j : Nat) : Int)) ∧ near index left right j ∧
      xs[j]? = some v ∧
      (NoTieMax o xs index left right →
        ∀ k w, near index left right k → xs[k]? = some w → o.key w ≤ o.key v) := by
  have hgi : xs[index]? = some xs[index] := List.getElem?_eq_getElem hi
  have hidx : idx xs (index : Int) = .ok xs[index] := idx_of_getElem? hgi
  obtain ⟨lv, lp, hl, hlg, hl0, hlmax, hlor⟩ := scan_max o xs hg (fl 0) (index : Int) h0
    (min left index + 1) (fun i => index - i) (fun i hi' => by omega)
    (fun i s => do
      let newIndex := (index : Int) - i
      let v ← idx xs newIndex
      if v >. s.1 then pure (v, newIndex) else pure s)
    (fun i s hi' => by
      have : (index : Int) - (i : Int) = ((index - i : Nat) : Int) := by omega
      simp only [this])
  obtain ⟨rv, rp, hr, hrg, hr0, hrmax, hror⟩ := scan_max o xs hg (fl 0) (index : Int) h0
    (min right (xs.length - 1 - index) + 1) (fun i => index + i) (fun i hi' => by omega)
    (fun i s => do
      let newIndex := (index : Int) + i
      let v ← idx xs newIndex
      if v >. s.1 then pure (v, newIndex) else pure s)
    (fun i s hi' => by
      have : (index : Int) + (i : Int) = ((index + i : Nat) : Int) := by omega
      simp only [this])
  have el : min (left : Int) (index : Int) + 1 = ((min left index + 1 : Nat) : Int) := by omega
  have er : min (right : Int) ((xs.length : Int) - 1 - (index : Int)) + 1
      = ((min right (xs.length - 1 - index) + 1 : Nat) : Int) := by omega
  unfold PivotMax
  rw [el, er]
  change goFor 0 _ _ (fun i (x : F × Int) => _) = _ at hl
  simp only [] at hl hr
  rw [show (fun (i : Int) (x : F × Int) => (match x with
      | (leftVal, leftPositions) => do
        let v ← idx xs ((index : Int) - i)
        if v >. leftVal then pure (v, (index : Int) - i) else pure (leftVal, leftPositions) : Go (F × Int)))
    = (fun i s => do
      let v ← idx xs ((index : Int) - i)
      if v >. s.1 then pure (v, (index : Int) - i) else pure s) from rfl, hl]
  simp only [ok_bind]
  rw [show (fun (i : Int) (x : F × Int) => (match x with
      | (leftVal, leftPositions) => do
        let v ← idx xs ((index : Int) + i)
        if v >. leftVal then pure (v, (index : Int) + i) else pure (leftVal, leftPositions) : Go (F × Int)))
    = (fun i s => do
      let v ← idx xs ((index : Int) + i)
      if v >. s.1 then pure (v, (index : Int) + i) else pure s) from rfl, hr]
  simp only [ok_bind, pure_eq_ok, hidx]
  -- everything near the index is below the larger of the two scans
  have hall : ∀ k w, near index left right k → xs[k]? = some w → o.key w ≤ max (o.key lv) (o.key rv) := by
    intro k w hk hw
    have hklt : k < xs.length := by
      by_contra h
      rw [List.getElem?_eq_none (by omega)] at hw; cases hw
    by_cases hki : k ≤ index
    · have := hlmax (index - k) (by unfold near at hk; omega) w
        (by rw [show index - (index - k) = k by omega]; exact hw)
      exact le_trans this (le_max_left _ _)
    · have := hrmax (k - index) (by unfold near at hk; omega) w
        (by rw [show index + (k - index) = k by omega]; exact hw)
      exact le_trans this (le_max_right _ _)
  have hself : near index left right index := by unfold near; omega
  by_cases h1 : (rv <. lv) = true
  · have hlt := (o.lt_iff hrg hlg).mp h1
    rw [GoFloat.gt, if_pos h1]
    rcases hlor with ⟨rfl, _⟩ | ⟨i, hi', rfl, hv⟩
    · exact absurd (lt_of_lt_of_le hlt hr0) (lt_irrefl _)
    · refine ⟨lv, index - i, rfl, by unfold near; omega, hv, fun _ k w hk hw => ?_⟩
      have := hall k w hk hw
      rwa [max_eq_left hlt.le] at this
  · rw [GoFloat.gt, if_neg h1]
    by_cases h2 : (lv <. rv) = true
    · have hlt := (o.lt_iff hlg hrg).mp h2
      rw [if_pos h2]
      rcases hror with ⟨rfl, _⟩ | ⟨i, hi', rfl, hv⟩
      · exact absurd (lt_of_lt_of_le hlt hl0) (lt_irrefl _)
      · refine ⟨rv, index + i, rfl, by unfold near; omega, hv, fun _ k w hk hw => ?_⟩
        have := hall k w hk hw
        rwa [max_eq_right hlt.le] at this
    · rw [if_neg h2]
      have heq : o.key lv = o.key rv := le_antisymm
        (not_lt.mp fun h => h1 ((o.lt_iff hrg hlg).mpr h))
        (not_lt.mp fun h => h2 ((o.lt_iff hlg hrg).mpr h))
      refine ⟨_, index, rfl, hself, hgi, fun htie k w hk hw => ?_⟩
      have hle := hall k w hk hw
      rw [← heq, max_self] at hle
      refine le_trans hle ?_
      have hself0 := hnn xs[index] (List.getElem_mem _)
      rcases hlor with ⟨rfl, _⟩ | ⟨i, hi', _, hv⟩
      · exact hself0
      rcases hror with ⟨rfl, _⟩ | ⟨i', hi'', _, hv'⟩
      · rw [heq]; exact hself0
      rcases Nat.eq_zero_or_pos i with rfl | hip
      · rw [Nat.sub_zero, hgi] at hv; cases hv; exact le_refl _
      rcases Nat.eq_zero_or_pos i' with rfl | hip'
      · rw [Nat.add_zero, hgi] at hv'; cases hv'; exact heq.le
      obtain ⟨k', w', hk', hw', hlt⟩ := htie (index - i) (index + i') lv rv
        (by unfold near; omega) (by unfold near; omega) (by omega) (by omega) hv hv' heq
      have := hall k' w' hk' hw'
      rw [← heq, max_self] at this
      exact absurd hlt (not_lt.mpr this)

/-- **C34 (partial, PivotMin).** For NaN-free series and a valid index: `PivotMin` returns a position
near the index together with its value, and that value is the smallest of the neighbourhood unless
the minimum is attained on both sides of the index. Missing from C34: such ties, refuted below. -/
theorem C34_pivot_min_partial (o : OrdKey F L) (xs : List F) (hg : ∀ v ∈ xs, o.good v)
    (index left right : Nat) (hi : index < xs.length) :
    ∃ v j, PivotMin xs index left right = .ok (v, ((j : Nat) : Int)) ∧ near index left right j ∧
      xs[j]? = some v ∧
      (NoTieMin o xs index left right →
        ∀ k w, near index left right k → xs[k]? = some w → o.key v ≤ o.key w) := by
  have hgi : xs[index]? = some xs[index] := List.getElem?_eq_getElem hi
  have hidx : idx xs (index : Int) = .ok xs[index] := idx_of_getElem? hgi
  have h0 : o.good xs[index] := hg _ (List.getElem_mem _)
  obtain ⟨lv, lp, hl, hlg, hl0, hlmin, hlor⟩ := scan_min o xs hg xs[index] (index : Int) h0
    (min left index + 1) (fun i => index - i) (fun i hi' => by omega)
    (fun i s => do
      let v ← idx xs ((index : Int) - i)
      if v <. s.1 then pure (v, (index : Int) - i) else pure s)
    (fun i s hi' => by
      have : (index : Int) - (i : Int) = ((index - i : Nat) : Int) := by omega
      simp only [this])
  obtain ⟨rv, rp, hr, hrg, hr0, hrmin, hror⟩ := scan_min o xs hg xs[index] (index : Int) h0
    (min right (xs.length - 1 - index) + 1) (fun i => index + i) (fun i hi' => by omega)
    (fun i s => do
      let v ← idx xs ((index : Int) + i)
      if v <. s.1 then pure (v, (index : Int) + i) else pure s)
    (fun i s hi' => by
      have : (index : Int) + (i : Int) = ((index + i : Nat) : Int) := by omega
      simp only [this])
  have el : min (left : Int) (index : Int) + 1 = ((min left index + 1 : Nat) : Int) := by omega
  have er : min (right : Int) ((xs.length : Int) - 1 - (index : Int)) + 1
      = ((min right (xs.length - 1 - index) + 1 : Nat) : Int) := by omega
  unfold PivotMin
  rw [el, er]
  simp only [hidx, ok_bind]
  rw [show (fun (i : Int) (x : F × Int) => (match x with
      | (leftVal, leftPositions) => do
        let v ← idx xs ((index : Int) - i)
        if v <. leftVal then pure (v, (index : Int) - i) else pure (leftVal, leftPositions) : Go (F × Int)))
    = (fun i s => do
      let v ← idx xs ((index : Int) - i)
      if v <. s.1 then pure (v, (index : Int) - i) else pure s) from rfl, hl]
  simp only [ok_bind]
  rw [show (fun (i : Int) (x : F × Int) => (match x with
      | (leftVal, leftPositions) => do
        let v ← idx xs ((index : Int) + i)
        if v <. leftVal then pure (v, (index : Int) + i) else pure (leftVal, leftPositions) : Go (F × Int)))
    = (fun i s => do
      let v ← idx xs ((index : Int) + i)
      if v <. s.1 then pure (v, (index : Int) + i) else pure s) from rfl, hr]
  simp only [ok_bind, pure_eq_ok]
  have hall : ∀ k w, near index left right k → xs[k]? = some w →
      min (o.key lv) (o.key rv) ≤ o.key w := by
    intro k w hk hw
    have hklt : k < xs.length := by
      by_contra h
      rw [List.getElem?_eq_none (by omega)] at hw; cases hw
    by_cases hki : k ≤ index
    · have := hlmin (index - k) (by unfold near at hk; omega) w
        (by rw [show index - (index - k) = k by omega]; exact hw)
      exact le_trans (min_le_left _ _) this
    · have := hrmin (k - index) (by unfold near at hk; omega) w
        (by rw [show index + (k - index) = k by omega]; exact hw)
      exact le_trans (min_le_right _ _) this
  have hself : near index left right index := by unfold near; omega
  by_cases h1 : (lv <. rv) = true
  · have hlt := (o.lt_iff hlg hrg).mp h1
    rw [if_pos h1]
    rcases hlor with ⟨rfl, _⟩ | ⟨i, hi', rfl, hv⟩
    · exact absurd (lt_of_lt_of_le hlt hr0) (lt_irrefl _)
    · refine ⟨lv, index - i, rfl, by unfold near; omega, hv, fun _ k w hk hw => ?_⟩
      have := hall k w hk hw
      rwa [min_eq_left hlt.le] at this
  · rw [if_neg h1]
    by_cases h2 : (rv <. lv) = true
    · have hlt := (o.lt_iff hrg hlg).mp h2
      rw [GoFloat.gt, if_pos h2]
      rcases hror with ⟨rfl, _⟩ | ⟨i, hi', rfl, hv⟩
      · exact absurd (lt_of_lt_of_le hlt hl0) (lt_irrefl _)
      · refine ⟨rv, index + i, rfl, by unfold near; omega, hv, fun _ k w hk hw => ?_⟩
        have := hall k w hk hw
        rwa [min_eq_right hlt.le] at this
    · rw [GoFloat.gt, if_neg h2]
      have heq : o.key lv = o.key rv := le_antisymm
        (not_lt.mp fun h => h2 ((o.lt_iff hrg hlg).mpr h))
        (not_lt.mp fun h => h1 ((o.lt_iff hlg hrg).mpr h))
      refine ⟨_, index, rfl, hself, hgi, fun htie k w hk hw => ?_⟩
      have hle := hall k w hk hw
      rw [← heq, min_self] at hle
      refine le_trans ?_ hle
      rcases hlor with ⟨rfl, _⟩ | ⟨i, hi', _, hv⟩
      · exact le_refl _
      rcases hror with ⟨rfl, _⟩ | ⟨i', hi'', _, hv'⟩
      · exact heq.ge
      rcases Nat.eq_zero_or_pos i with rfl | hip
      · rw [Nat.sub_zero, hgi] at hv; cases hv; exact le_refl _
      rcases Nat.eq_zero_or_pos i' with rfl | hip'
      · rw [Nat.add_zero, hgi] at hv'; cases hv'; exact heq.ge
      obtain ⟨k', w', hk', hw', hlt⟩ := htie (index - i) (index + i') lv rv
        (by unfold near; omega) (by unfold near; omega) (by omega) (by omega) hv hv' heq
      have := hall k' w' hk' hw'
      rw [← heq, min_self] at this
      exact absurd hlt (not_lt.mpr this)

example : PivotMax (fins [5, 1, 2, 3, 4] : List (XF ℚ)) 2 1 2 = .ok (.fin 4, 4) ∧
    PivotMin (fins [-5, 1, 2, 3, 0] : List (XF ℚ)) 2 1 2 = .ok (.fin 0, 4) := by decide +kernel

/-- **C34 is false as stated**: with all-negative values `PivotMax` does not find the maximum, and
when the extreme occurs on both sides of the index both functions answer with the value at the
index. -/
theorem C34_refuted :
    PivotMax (fins [-1, -5, -2] : List (XF ℚ)) 1 1 1 = .ok (.fin (-5), 1) ∧
    PivotMax (fins [9, 1, 9] : List (XF ℚ)) 1 1 1 = .ok (.fin 1, 1) ∧
    PivotMin (fins [1, 9, 1] : List (XF ℚ)) 1 1 1 = .ok (.fin 9, 1) := by decide +kernel

end Verif.Props
