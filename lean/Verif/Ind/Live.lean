import Verif.Ind.Signals

/-!
# Objects whose candle series changes

The constructors `New...(klineItem, ...)` store the pointer `klineItem`, or columns computed from it. A
program that goes on using the item (appending the candle that just closed, merging the running one,
pruning old ones) changes what an object with a stored pointer reads afterwards.
-/

set_option linter.unusedSectionVars false

namespace Verif.Ind
open Verif Verif.Klines Verif.Ta GoFloat

variable {F : Type}

/-- What a program does with an object and with the item it was made from. -/
inductive Event (F : Type) where
  /-- the item the object was made from now holds this -/
  | change (it : Item F)
  | getData
  | analysisSide
  | calculation

/-- What an event hands to the program. -/
inductive Answer (D : Type) where
  | nothing
  | records (d : List D)
  | sides (s : List Side)

/-- One event. `see` gives the source of the object after the item has become `it`: `fun it _ => it` for a
struct with a field `kline *klines.Item` (such as trend/Macd.go:28-35), `fun _ s => s` for a struct with
columns computed by the constructor (such as `ohlc` of trend/UTBot.go:13-20). Simplification: an item is
changed as a whole, and only between method calls. -/
def Strat.on (I : Strat F) (see : Item F → I.S → I.S) (e : Obj I.toIndicator) :
    Event F → Go (Answer I.D × Obj I.toIndicator)
  | .change it => pure (.nothing, { e with src := see it e.src })
  | .getData => do
    let (d, e) ← e.GetData
    pure (.records d, e)
  | .analysisSide => do
    let (s, e) ← I.AnalysisSide e
    pure (.sides s, e)
  | .calculation => do
    let e ← e.Calculation
    pure (.nothing, e)

/-- Events one after another, with their answers. -/
def Strat.after (I : Strat F) (see : Item F → I.S → I.S) (e : Obj I.toIndicator) :
    List (Event F) → Go (List (Answer I.D) × Obj I.toIndicator)
  | [] => pure ([], e)
  | v :: vs => do
    let (a, e) ← I.on see e v
    let (as, e) ← I.after see e vs
    pure (a :: as, e)

/-- The answers of a new object. -/
def Strat.history (I : Strat F) (see : Item F → I.S → I.S) (it : Item F) (vs : List (Event F)) :
    Go (List (Answer I.D)) := do
  let e ← I.toIndicator.new it
  let (as, _) ← I.after see e vs
  pure as

/-! ## The loop of `AnalysisSide` on a series of another length -/

section
variable {D : Type}

/-- More candles than records: the candles without a record keep the zero value of `Side`. -/
theorem sideLoop_long {n m start : Nat} {g : Nat → D} {rule : Int → D → D → Go Side} (f : Nat → Side) (hnm : n ≤ m)
    (h : ∀ k, k + 1 < n → start ≤ k + 1 → rule ((k + 1 : Nat) : Int) (g k) (g (k + 1)) = .ok (f (k + 1))) (h1 : 1 ≤ start)
    (h0 : ∀ k, k < start ∨ n ≤ k → f k = Buy) :
    sideLoop m start (tab n g) rule = .ok (tab m f) := by
  unfold sideLoop
  rw [mk_nat, ok_bind, tab_length]
  obtain ⟨s, hs, p⟩ := goFor_inv' (lo := 0) (hi := n) (s := List.replicate m Buy) (Nat.zero_le _)
    (body := fun i sides => do
      let v ← idx (tab n g) i
      if i < (start : Int) then pure sides
      else
        let prev ← idx (tab n g) (i - 1)
        let s ← rule i prev v
        setAt sides i s)
    (fun k st => st = filled m k f Buy) (filled_zero m f Buy) (by
      intro k s _ hk hp
      subst hp
      rw [idx_tab hk, ok_bind]
      by_cases hc : k < start
      · rw [if_pos (by omega)]
        refine ⟨_, rfl, tab_ext fun i _ => ?_⟩
        rcases lt_trichotomy i k with hi | rfl | hi
        · simp [hi, show i < k + 1 by omega]
        · simp [h0 i (.inl hc)]
        · simp [show ¬ i < k by omega, show ¬ i < k + 1 by omega]
      · rw [if_neg (by omega)]
        obtain ⟨j, rfl⟩ : ∃ j, k = j + 1 := ⟨k - 1, by omega⟩
        rw [show ((j + 1 : Nat) : Int) - 1 = (j : Int) by omega, idx_tab (by omega), ok_bind, h j hk (by omega), ok_bind]
        exact ⟨_, setAt_filled (by omega) rfl, rfl⟩)
  refine hs.trans (congrArg Except.ok (p.trans (tab_ext fun i _ => ?_)))
  by_cases hi : i < n
  · simp [hi]
  · simp [hi, h0 i (.inr (by omega))]

/-- Fewer candles than records: the first record without a candle ends the loop with an index panic. -/
theorem sideLoop_short {n m start : Nat} {g : Nat → D} {rule : Int → D → D → Go Side} (f : Nat → Side)
    (hm : max m start < n) (h1 : 1 ≤ start)
    (h : ∀ k, k + 1 < m → start ≤ k + 1 → rule ((k + 1 : Nat) : Int) (g k) (g (k + 1)) = .ok (f (k + 1)))
    (he : ∀ k p v, m ≤ k → rule ((k : Nat) : Int) p v = .error .index ∨ ∃ s, rule ((k : Nat) : Int) p v = .ok s) :
    sideLoop m start (tab n g) rule = .error .index := by
  unfold sideLoop
  rw [mk_nat, ok_bind, tab_length]
  unfold goFor
  have : ((n : Int) - 0).toNat = n := by omega
  rw [this]
  have hlen : ∀ s : List Side, s.length = m → ∀ (k : Nat) v, m ≤ k → setAt s k v = .error .index := by
    intro s hs k v hk
    exact setAt_ge (by rw [hs]; exact_mod_cast hk)
  refine goForFrom_inv_error (max m start) hm (fun _ st => st.length = m) (by simp) ?_ ?_
  · intro k s hk hp
    simp only [Int.zero_add]
    rw [idx_tab (by omega), ok_bind]
    by_cases hc : k < start
    · rw [if_pos (by omega)]
      exact ⟨_, rfl, hp⟩
    · rw [if_neg (by omega)]
      obtain ⟨j, rfl⟩ : ∃ j, k = j + 1 := ⟨k - 1, by omega⟩
      have hj : j + 1 < m := by omega
      rw [show ((j + 1 : Nat) : Int) - 1 = (j : Int) by omega, idx_tab (by omega), ok_bind, h j hj (by omega), ok_bind]
      exact ⟨_, setAt_nat (by omega), by simpa using hp⟩
  · intro s hp
    simp only [Int.zero_add]
    rw [idx_tab hm, ok_bind, if_neg (by omega)]
    obtain ⟨j, hj⟩ : ∃ j, max m start = j + 1 := ⟨max m start - 1, by omega⟩
    rw [hj, show ((j + 1 : Nat) : Int) - 1 = (j : Int) by omega, idx_tab (by omega), ok_bind]
    rcases he (j + 1) (g j) (g (j + 1)) (by omega) with e | ⟨t, e⟩
    · rw [e]; rfl
    · rw [e, ok_bind]
      exact hlen s hp _ _ (by omega)

end

end Verif.Ind
