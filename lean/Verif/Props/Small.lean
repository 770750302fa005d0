import Verif.Go.Loop
import Verif.Ind.Run
import Verif.Ind.Blocks
import Verif.Ind.Osc
import Verif.Ta.Heap
import Verif.Ta.Exact
import Verif.Props.Bars
import Verif.Ind.Channel

/-!
# Sides, running strategies, replacing NaN, order-block lists (C56, C57, C58, C60)
-/

namespace Verif.Props
open Verif Verif.Ind Verif.Klines Verif.Ta

variable {F : Type}

/-! ## C58 -/

/-- C58: `Buy`, `Sell` and `Hold` are three different 32-bit values; the three names belong to exactly these
values, and every other value prints as UNKNOWN. -/
theorem C58_sides :
    Buy ≠ Sell ∧ Buy ≠ Hold ∧ Sell ≠ Hold ∧
    (∀ s : Side, (Side.name s = "BUY" ↔ s = Buy) ∧ (Side.name s = "SELL" ↔ s = Sell) ∧
      (Side.name s = "HOLD" ↔ s = Hold) ∧
      (Side.name s = "UNKNOWN" ↔ s ≠ Buy ∧ s ≠ Sell ∧ s ≠ Hold)) := by
  have h1 : Buy ≠ Sell := by decide
  have h2 : Buy ≠ Hold := by decide
  have h3 : Sell ≠ Hold := by decide
  refine ⟨h1, h2, h3, fun s => ?_⟩
  unfold Side.name
  by_cases a : s = Buy
  · subst a; simp [h1, h2]
  · by_cases b : s = Sell
    · subst b; simp [h1.symm, h3]
    · by_cases c : s = Hold
      · subst c; simp [h2.symm, h3.symm]
      · simp [a, b, c]

/-- C58: `Strings` never panics and names every side in its place. -/
theorem C58_strings (s : List Side) : Strings s = .ok (s.map Side.name) := by
  obtain ⟨x, hx⟩ : ∃ x : Nat → Side, s = tab s.length x := ⟨fun i => s[i]?.getD 0, eq_tab_of_forall rfl fun i hi => by
    simp [List.getElem?_eq_getElem hi]⟩
  generalize s.length = n at hx
  subst hx
  unfold Strings
  rw [tab_length, mk_nat, ok_bind, map_tab]
  refine goFor_fill₀ _ fun k hk => ?_
  rw [idx_tab hk, ok_bind, setAt_filled hk rfl]

example : Strings [0, 4, 2, 7] = .ok ["BUY", "HOLD", "SELL", "UNKNOWN"] := by decide +kernel

/-! ## C56 -/

/-- C56: when every strategy in the list gives a result when called alone, `RunStrategies` returns exactly these
results in the same order, also when an object occurs several times, and every object not in the list is
unchanged. -/
theorem C56_run_in_order (I : Nat → Strat F) (names : Nat → String) (h : Heap I) (ps : List (Option Nat))
    (r : Nat → SideData) (hr : ∀ (i : Nat) (p : Option Nat), ps[i]? = some p → sideOf I names h p = .ok (r i)) :
    ∃ h', RunStrategies I names h ps = .ok (tab ps.length r, h') ∧
      ∀ a, some a ∉ ps → h' a = h a := by
  unfold RunStrategies
  rw [mk_nat, ok_bind]
  obtain ⟨⟨as, h'⟩, hrun, has, hsame, hout⟩ := goFor_inv (n := ps.length)
    (s := (List.replicate ps.length (⟨"", []⟩ : SideData), h))
    (body := fun i (actions, h) => do
      let p ← idx ps i
      let (r, h) ← callSide I names h p
      let actions ← setAt actions i r
      pure (actions, h))
    (fun k st => st.1 = filled ps.length k r ⟨"", []⟩ ∧ (∀ p, sideOf I names st.2 p = sideOf I names h p) ∧
      ∀ a, some a ∉ ps → st.2 a = h a)
    ⟨filled_zero _ _ _, fun _ => rfl, fun _ _ => rfl⟩
    (by
      rintro k ⟨as, h₁⟩ hk ⟨rfl, hs, ho⟩
      have hp : ps[k]? = some ps[k] := List.getElem?_eq_getElem hk
      have h1 := hs ps[k]
      rw [hr k _ hp] at h1
      cases hc : callSide I names h₁ ps[k] with
      | error e => rw [sideOf, hc] at h1; cases h1
      | ok rh =>
        obtain ⟨r₁, h₂⟩ := rh
        rw [sideOf, hc] at h1
        cases h1
        refine ⟨(filled ps.length (k + 1) r ⟨"", []⟩, h₂), ?_, rfl, fun p => ?_, fun a ha => ?_⟩
        · simp only [idx_of_getElem? hp, ok_bind, hc, setAt_filled hk rfl, pure_eq_ok]
        · exact (sideOf_after hc p).trans (hs p)
        · obtain ⟨b, e, e', s, hb, -, -, -, rfl⟩ := callSide_ok hc
          have hab : a ≠ b := fun hab => ha (hab ▸ hb ▸ List.getElem_mem hk)
          show Function.update h₁ b (some e') a = h a
          rw [Function.update_of_ne hab]
          exact ho a ha)
  rw [filled_full] at has
  cases has
  exact ⟨h', hrun, hout⟩

/-- C56: conversely, when `RunStrategies` returns, every strategy gives that result when called alone. -/
theorem C56_results (I : Nat → Strat F) (names : Nat → String) (h h' : Heap I) (ps : List (Option Nat))
    (rs : List SideData) (hrun : RunStrategies I names h ps = .ok (rs, h')) :
    rs.length = ps.length ∧ ∀ (i : Nat) (p : Option Nat), ps[i]? = some p →
      ∃ r, rs[i]? = some r ∧ sideOf I names h p = .ok r := by
  unfold RunStrategies at hrun
  rw [mk_nat, ok_bind] at hrun
  obtain ⟨h1, -, h2⟩ := goFor_ok_inv₀ (n := ps.length) (fun k (st : List SideData × Heap I) =>
      st.1.length = ps.length ∧ (∀ p, sideOf I names st.2 p = sideOf I names h p) ∧
      ∀ (i : Nat) (p : Option Nat), i < k → ps[i]? = some p →
        ∃ r, st.1[i]? = some r ∧ sideOf I names h p = .ok r)
    (by
      rintro k ⟨as, h₁⟩ ⟨as', h₂⟩ hk ⟨hl, hs, hi⟩ hb
      have hp : ps[k]? = some ps[k] := List.getElem?_eq_getElem hk
      simp only [idx_of_getElem? hp, ok_bind] at hb
      cases hc : callSide I names h₁ ps[k] with
      | error e => rw [hc] at hb; cases hb
      | ok rh =>
        obtain ⟨r₁, h₃⟩ := rh
        simp only at hl
        rw [hc, ok_bind, setAt_nat (by omega)] at hb
        cases hb
        refine ⟨by simpa using hl, fun p => (sideOf_after hc p).trans (hs p), fun i p hik hip => ?_⟩
        by_cases hik' : i = k
        · subst hik'
          rw [hp] at hip
          cases hip
          exact ⟨r₁, by rw [List.getElem?_set_self (by omega)], by rw [← hs, sideOf, hc]; rfl⟩
        · obtain ⟨r, h1, h2⟩ := hi i p (by omega) hip
          exact ⟨r, by rw [List.getElem?_set_ne (by omega)]; exact h1, h2⟩)
    ⟨by simp, fun _ => rfl, fun i p hi => absurd hi (Nat.not_lt_zero _)⟩ hrun
  refine ⟨h1, fun i p hp => h2 i p ?_ hp⟩
  by_contra hi
  rw [List.getElem?_eq_none (by omega)] at hp; cases hp

/-- Two Donchian channels, one of them twice. -/
example : (RunStrategies (F := XF ℚ) (fun a => Ind.Donchian (a + 1)) (fun a => if a = 0 then "a" else "b")
    (fun a => if a < 2 then some ⟨barItem [⟨1, 3, 1, 2, 0⟩, ⟨2, 3, 2, 3, 0⟩, ⟨3, 3, 1, 1, 0⟩], []⟩ else none)
      [some 1, some 0, some 1]).toOption.map Prod.fst =
      some [⟨"b", [Buy, Hold, Sell]⟩, ⟨"a", [Buy, Hold, Hold]⟩, ⟨"b", [Buy, Hold, Sell]⟩] := by decide +kernel

/-! ## C60 -/

/-- C60: `Nzs` on a slice of any memory never panics, returns that very slice, and afterwards every cell of the slice
that held a NaN holds the replacement while every other cell of the memory, in the slice or not, is unchanged. -/
theorem C60_nzs [GoFloat F] (m : FMem F) (s : FSlice) (hs : s.Valid m) (r : F) :
    ∃ m', NzsH m s r = .ok (m', s) ∧ m'.length = m.length ∧
      ∀ (k j : Nat) (v : F), m.cell k j = some v →
        m'.cell k j = some (if (k = s.arr ∧ s.off ≤ j ∧ j < s.off + s.len) ∧ GoFloat.isNaN v = true then r else v) := by
  obtain ⟨m', h1, h2, h3⟩ := NzsH_run m s hs r
  refine ⟨m', h1, h2, fun k j v hv => ?_⟩
  rw [h3, hv]
  by_cases hin : k = s.arr ∧ s.off ≤ j ∧ j < s.off + s.len
  · rw [if_pos hin]
    by_cases hn : GoFloat.isNaN v = true
    · simp [hin, hn, Nz]
    · simp [hn, Nz]
  · rw [if_neg hin, if_neg (fun h => hin h.1)]

/-- Two slices of one array: the second sees the write, the cell outside both does not change. -/
example : NzsH ([[.fin 1, .nan, .fin 2, .nan], [.nan]] : FMem (XF ℚ)) ⟨0, 0, 3⟩ (.fin 7) =
    .ok ([[.fin 1, .fin 7, .fin 2, .nan], [.nan]], ⟨0, 0, 3⟩) := by decide +kernel

/-! ## C57 -/

/-- An operation on an order-block list. -/
inductive BlockOp (F : Type) where
  | add (b : Block F)
  | remove (b : Block F)

/-- The list after a history of operations on the empty list. -/
def blockRun : List (BlockOp F) → Go (List (Block F))
  | [] => .ok []
  | op :: ops => do
    let l ← blockRun ops
    match op with
    | .add b => pure (Ind.Add l b)
    | .remove b => Remove l b

/-- The blocks a history adds, latest first (histories are written latest first too). -/
def added : List (BlockOp F) → List (Block F)
  | [] => []
  | .add b :: ops => b :: added ops
  | .remove _ :: ops => added ops

/-- Two blocks with the same direction and time. -/
def SameBlock (a b : Block F) : Prop := a.isTop = b.isTop ∧ a.time = b.time

/-- C57: after every history of additions and removals the list holds no two blocks of the same direction and time,
and its blocks are among the added ones, those added later standing first. -/
theorem C57_unique (ops : List (BlockOp F)) :
    ∃ l, blockRun ops = .ok l ∧ l.Pairwise (fun a b => ¬ SameBlock a b) ∧ l.Sublist (added ops) := by
  induction ops with
  | nil => exact ⟨[], rfl, List.Pairwise.nil, List.Sublist.refl _⟩
  | cons op ops ih =>
    obtain ⟨l, hl, hp, hs⟩ := ih
    cases op with
    | add b =>
      refine ⟨Ind.Add l b, by rw [blockRun, hl]; rfl, ?_⟩
      unfold Ind.Add
      by_cases hc : Contains l b = true
      · rw [hc]; exact ⟨hp, hs.trans (List.sublist_cons_self _ _)⟩
      · rw [Bool.not_eq_true] at hc
        rw [hc]
        refine ⟨List.pairwise_cons.mpr ⟨fun a ha hsame => ?_, hp⟩, hs.cons_cons b⟩
        have : Contains l b = true := (Contains_iff l b).mpr ⟨a, ha, hsame.1.symm, hsame.2.symm⟩
        rw [hc] at this; cases this
    | remove b =>
      refine ⟨if Contains l b then l.eraseP fun a => a.Equal b else [], by rw [blockRun, hl]; exact Remove_eq l b, ?_⟩
      split
      · exact ⟨hp.sublist (List.eraseP_sublist), (List.eraseP_sublist).trans hs⟩
      · exact ⟨List.Pairwise.nil, List.nil_sublist _⟩

/-- C57: adding a block puts it first, unless one of the same direction and time is there already: then nothing
changes. -/
theorem C57_add (l : List (Block F)) (k : Block F) :
    ((∃ b ∈ l, SameBlock b k) → Ind.Add l k = l) ∧ ((¬ ∃ b ∈ l, SameBlock b k) → Ind.Add l k = k :: l) := by
  unfold Ind.Add SameBlock
  constructor
  · intro h
    rw [(Contains_iff l k).mpr h]; rfl
  · intro h
    have : Contains l k = false := by
      rw [← Bool.not_eq_true, Contains_iff]; exact h
    rw [this]; rfl

/-- C57: removing a block that is in the list takes out one block of that direction and time and keeps all the others
in their order. -/
theorem C57_remove_partial (l : List (Block F)) (k : Block F) (h : ∃ b ∈ l, SameBlock b k) :
    ∃ pre b post, l = pre ++ b :: post ∧ SameBlock b k ∧ (∀ a ∈ pre, ¬ SameBlock a k) ∧
      Remove l k = .ok (pre ++ post) := by
  rw [Remove_eq, (Contains_iff l k).mpr h, if_pos rfl]
  obtain ⟨b, hb, hsame⟩ := h
  obtain ⟨c, pre, post, h1, h2, h3, h4⟩ := List.exists_of_eraseP (p := fun a : Block F => a.Equal k) hb
    ((Equal_iff _ _).mpr hsame)
  exact ⟨pre, c, post, h3, (Equal_iff _ _).mp h2, fun a ha hs => h1 a ha ((Equal_iff _ _).mpr hs), by rw [h4]⟩

/-- C57, the missing part: removing a block that is not in the list empties the list. -/
theorem C57_remove_absent_refuted (l : List (Block F)) (k : Block F) (h : ¬ ∃ b ∈ l, SameBlock b k) :
    Remove l k = .ok [] := by
  rw [Remove_eq, if_neg (fun hc => h ((Contains_iff l k).mp hc))]

example : (blockRun [.remove ⟨true, 2, 0, 0, 0, 0⟩, .add ⟨true, 3, 0, 0, 0, 0⟩, .add ⟨true, 2, 9, 0, 0, 0⟩,
    .add ⟨true, 2, 1, 0, 0, 0⟩, .add ⟨true, 1, 0, 0, 0, 0⟩] : Go (List (Block Nat))) =
      .ok [⟨true, 3, 0, 0, 0, 0⟩, ⟨true, 1, 0, 0, 0, 0⟩] := by decide +kernel

example : Remove ([⟨true, 3, 0, 0, 0, 0⟩, ⟨true, 1, 0, 0, 0, 0⟩] : List (Block Nat)) ⟨false, 3, 0, 0, 0, 0⟩ = .ok [] := by
  decide +kernel

end Verif.Props
