import Verif.Props.Smc

/-!
# Smart Money Concepts: concrete series and the first run

Kept apart from `Verif/Props/SmcWit.lean` because each run takes several gigabytes to check.

Series over the rationals on which the code departs from the expected behaviour, and on which the theorems of
`Verif/Props/Smc.lean` are not vacuous. A row is (high, low, close); candle `k` has the time `k` seconds.
-/

set_option linter.unusedSectionVars false

namespace Verif.Props
open Verif Verif.Klines Verif.Ta Verif.Ind Verif.Ind.Smc GoFloat

namespace SmcWit

/-- The candle of a row. -/
def candle (k : Nat) (r : ℚ × ℚ × ℚ) : Candle (XF ℚ) :=
  { candleOf ((k : Int) * 1000000000) r.2.2 r.1 r.2.1 r.2.2 1 with timeUnix := k }

/-- The rows: the given exceptions, all others (10, 10, 10). -/
def row (ex : List (Nat × ℚ × ℚ × ℚ)) (k : Nat) : ℚ × ℚ × ℚ := ((ex.find? fun p => p.1 = k).map (·.2)).getD (10, 10, 10)

/-- The candles. -/
def col (ex : List (Nat × ℚ × ℚ × ℚ)) (k : Nat) : Candle (XF ℚ) := candle k (row ex k)

/-- A series of `n` candles. -/
def item (n : Nat) (ex : List (Nat × ℚ × ℚ × ℚ)) : Item (XF ℚ) :=
  { exchange := "x", interval := 1000000000, symbol := "s", code := "c", candles := tab n (col ex) }

theorem clean (n : Nat) (ex : List (Nat × ℚ × ℚ × ℚ)) : Clean XF.ordKey n (col ex) := by
  refine fun j _ => ⟨?_, ?_, ?_⟩ <;> intro h <;> cases h

theorem ti_col (ex : List (Nat × ℚ × ℚ × ℚ)) (k : Nat) : ti (col ex) k = k := rfl

/-- A high at candle 1 and a low at candle 5. -/
def exC : List (Nat × ℚ × ℚ × ℚ) := [(1, 30, 10, 10), (5, 10, 5, 10)]

/-- `Calculation` with the average true range in closed form, which is cheaper to evaluate. -/
def runOf (g : Cfg) (n : Nat) (x : Nat → Candle (XF ℚ)) (e : Smc.Obj (XF ℚ)) : Go (Smc.Obj (XF ℚ)) :=
  (goFor 1 n ({ e with data := List.replicate n Smc.Rec.zero }, (Loc.new : Loc (XF ℚ))) fun i s =>
    Smc.step g (ohlcOf n x) (tab n (atrI 200 (hi x) (lo x) (cl x))) i s) >>= fun p => .ok p.1

theorem runOf_eq (g : Cfg) {n : Nat} (hn : 200 < n) (x : Nat → Candle (XF ℚ)) (e : Smc.Obj (XF ℚ)) :
    Calculation g (ohlcOf n x) e = runOf g n x e := by
  unfold Calculation runOf
  have hA : Atr (ohlcOf n x).high (ohlcOf n x).low (ohlcOf n x).close 200 =
      .ok (tab n (atrI 200 (hi x) (lo x) (cl x))) := Atr_ok _ _ _ (.inr (by omega))
  have hlen : (ohlcOf n x).close.length = n := by simp [ohlcOf]
  rw [hA, ok_bind, hlen, mk_nat, ok_bind]
  rfl

/-- The weak highs of a run, and of a run after `Clear` of the same object. -/
def twoRuns (g : Cfg) (n : Nat) (x : Nat → Candle (XF ℚ)) : Go (Level (XF ℚ) × Level (XF ℚ)) := do
  let e ← runOf g n x Obj.new
  let e' ← runOf g n x (Smc.Clear e)
  pure (e.weakHigh, e'.weakHigh)

set_option maxRecDepth 100000 in
theorem exC_run : (twoRuns (Cfg.new 195 3 1) 201 (col exC)).toOption = some (⟨0, .fin 30⟩, ⟨1, .fin 30⟩) := by
  decide +kernel

end SmcWit

end Verif.Props
