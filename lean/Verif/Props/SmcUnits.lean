import Verif.Ind.SmcUnits
import Verif.Props.Scale
import Verif.Props.SmcWit

/-!
# Smart Money Concepts in another unit of price (C147)

The same market quoted in another unit should show the same structure: the same lines, the same order blocks and the
same strong and weak levels, with their prices converted. The code starts the search for the lowest low at the literal
99999999 (trend/SmartMoneyConcepts.go:442), so this holds only while the lows are below that number in both units.
-/

set_option linter.unusedSectionVars false

namespace Verif.Props
open Verif Verif.Klines Verif.Ta Verif.Ind Verif.Ind.Smc GoFloat

section exact
variable {K : Type} [Field K] [LinearOrder K] [IsStrictOrderedRing K]

/-- A record with its prices times `c`. -/
def recTimes (c : K) (r : Smc.Rec (XF K)) : Smc.Rec (XF K) :=
  { time := r.time
    highBosShort := XF.times c r.highBosShort
    highChochShort := XF.times c r.highChochShort
    highBosLong := XF.times c r.highBosLong
    highChochLong := XF.times c r.highChochLong
    lowBosShort := XF.times c r.lowBosShort
    lowChochShort := XF.times c r.lowChochShort
    lowBosLong := XF.times c r.lowBosLong
    lowChochLong := XF.times c r.lowChochLong
    eqh := XF.times c r.eqh
    eql := XF.times c r.eql }

/-- An order block with its prices times `c`. -/
def blockTimes (c : K) (b : Block (XF K)) : Block (XF K) :=
  { isTop := b.isTop
    time := b.time
    open_ := XF.times c b.open_
    close := XF.times c b.close
    high := XF.times c b.high
    low := XF.times c b.low }

/-- A level with its price times `c`. -/
def levelTimes (c : K) (l : Level (XF K)) : Level (XF K) := ⟨l.time, XF.times c l.value⟩

/-- What a user reads from a computation: the records, the two lists of order blocks, the four levels. -/
structure Structure (K : Type) [Field K] [LinearOrder K] [IsStrictOrderedRing K] where
  records : List (Smc.Rec (XF K))
  bullish : List (Block (XF K))
  bearish : List (Block (XF K))
  strongHigh : Level (XF K)
  weakHigh : Level (XF K)
  strongLow : Level (XF K)
  weakLow : Level (XF K)

/-- The structure found in a series, if the computation returns. -/
def structureOf (g : Cfg) (it : Item (XF K)) : Option (Structure K) :=
  (smcRun g it).toOption.map fun r =>
    ⟨r.1, r.2.bull, r.2.bear, r.2.strongHigh, r.2.weakHigh, r.2.strongLow, r.2.weakLow⟩

/-- The same structure with prices times `c`. -/
def Structure.times (c : K) (s : Structure K) : Structure K :=
  ⟨s.records.map (recTimes c), s.bullish.map (blockTimes c), s.bearish.map (blockTimes c), levelTimes c s.strongHigh,
    levelTimes c s.weakHigh, levelTimes c s.strongLow, levelTimes c s.weakLow⟩

theorem min_fits {q : K} (h : q ≤ 99999999) : GoFloat.min (XF.fin q) (lit 99999999 : XF K) = XF.fin q := by
  have h' : q ≤ ((99999999 : ℚ) : K) := by push_cast; exact h
  rw [XF.lit_fin, XF.min_fin, min_eq_left h']

/-- **C147.** If the prices of every candle are multiplied by `c > 0` (and its volume by any `e`), the computation returns
exactly when it did before, and finds the same structure with the prices multiplied by `c`, as long as the lows are at most
99999999 in both units. -/
theorem C147_smc_units (g : Cfg) (it : Item (XF K)) (c e : K) (hc : 0 < c)
    (hl : ∀ k ∈ it.candles, ∃ q, k.low = .fin q ∧ q ≤ 99999999 ∧ c * q ≤ 99999999) :
    structureOf g (rescale c e it) = (structureOf g it).map (Structure.times c) := by
  obtain ⟨n, x, hx⟩ : ∃ n x, it.candles = tab n x := ⟨_, _, @eq_tab _ ⟨Candle.zero 0⟩ it.candles⟩
  let y : Nat → Candle (XF K) := fun j => { x j with
      open_ := XF.times c (x j).open_, high := XF.times c (x j).high, low := XF.times c (x j).low,
      close := XF.times c (x j).close, volume := XF.times e (x j).volume,
      amount := XF.times c (XF.times e (x j).amount) }
  have hy : (rescale c e it).candles = tab n y := by
    rw [rescale, hx, map_tab]
  have hfit : Fits (Scaling.ofPos c hc) (tab n (lo x)) := by
    intro v hv
    obtain ⟨j, hj, rfl⟩ := mem_tab.mp hv
    obtain ⟨q, h1, h2, h3⟩ := hl (x j) (by rw [hx]; exact mem_tab.mpr ⟨j, hj, rfl⟩)
    have e1 : lo x j = .fin q := h1
    rw [e1]
    exact ⟨min_fits h2, min_fits h3⟩
  have := Calculation_conv (Scaling.ofPos c hc) g n x y Obj.new (fun _ => rfl) (fun _ => rfl) (fun _ => rfl) (fun _ => rfl)
    (fun _ => rfl) hfit
  rw [obj_new] at this
  rw [structureOf, structureOf, smcRun_eq hx, smcRun_eq hy]
  revert this
  cases Calculation g (ohlcOf n x) Obj.new with
  | error p =>
    cases Calculation g (ohlcOf n y) Obj.new with
    | error q => exact fun _ => rfl
    | ok q => exact fun h => h.elim
  | ok r =>
    cases Calculation g (ohlcOf n y) Obj.new with
    | error q => exact fun h => h.elim
    | ok q =>
      intro h
      have h : q = objIn (Scaling.ofPos c hc) r := h
      subst h
      rfl

end exact

/-! ## Prices above 99999999 -/

namespace SmcWit

/-- A dip at candle 195, a peak at candle 197, a close above the peak at candle 204. -/
def exU : List (Nat × ℚ × ℚ × ℚ) := [(195, 10, 8, 10), (197, 12, 10, 10), (204, 13, 10, 13)]

def gU : Cfg := Cfg.new 200 3 1

/-- The same candles with prices times 10^8. -/
def colU (k : Nat) : Candle (XF ℚ) :=
  let c := (100000000 : ℚ)
  { col exU k with
    open_ := XF.times c (col exU k).open_, high := XF.times c (col exU k).high, low := XF.times c (col exU k).low,
    close := XF.times c (col exU k).close, volume := XF.times 1 (col exU k).volume,
    amount := XF.times c (XF.times 1 (col exU k).amount) }

def seen (e : Smc.Obj (XF ℚ)) := (e.bull.map fun b => b.time, e.data[203]?.map fun r => r.highBosShort)

set_option maxRecDepth 100000 in
theorem exU_run : (runOf gU 205 (col exU) Obj.new).toOption.map seen = some ([200], some (.fin 12)) := by decide +kernel

set_option maxRecDepth 100000 in
theorem exU_run' : (runOf gU 205 colU Obj.new).toOption.map seen = some ([0], some (.fin 1200000000)) := by decide +kernel

end SmcWit
open SmcWit

/-- **C147 (refuted part).** Above 99999999 the structure can be another one: the market below, quoted in a unit 10^8 times
smaller, breaks the same peak at the same candle, but the bullish order block of the break is candle 0 instead of candle 200. -/
theorem C147_smc_units_refuted : ∃ (g : Cfg) (it : Item (XF ℚ)) (s s' : Structure ℚ),
    structureOf g it = some s ∧ structureOf g (rescale 100000000 1 it) = some s' ∧
      s.bullish.map (·.time) = [200] ∧ s'.bullish.map (·.time) = [0] := by
  obtain ⟨e, h0, h2⟩ := of_toOption_map exU_run
  obtain ⟨e', h0', h2'⟩ := of_toOption_map exU_run'
  have h1 := runOf_ok (by omega) h0
  have h1' : smcRun gU (rescale 100000000 1 (item 205 exU)) = .ok (e'.data, e') := by
    have hy : (rescale 100000000 1 (item 205 exU)).candles = tab 205 colU := by
      rw [rescale, item, map_tab]
      rfl
    rw [smcRun_eq hy, runOf_eq gU (by omega), h0', ok_bind]
  refine ⟨gU, item 205 exU, _, _, by rw [structureOf, h1]; rfl, by rw [structureOf, h1']; rfl, ?_, ?_⟩
  · exact (Prod.mk.inj h2).1
  · exact (Prod.mk.inj h2').1

/-- C147: the hypotheses hold for a market with an order block and a line, in a unit a hundred times smaller. -/
example : (∀ k ∈ (item 205 exU).candles, ∃ q, k.low = .fin q ∧ q ≤ 99999999 ∧ (100 : ℚ) * q ≤ 99999999) ∧
    ∃ s, structureOf gU (item 205 exU) = some s ∧ s.bullish ≠ [] ∧ ∃ r, s.records[203]? = some r ∧ r.highBosShort = .fin 12 := by
  constructor
  · intro k hk
    obtain ⟨j, -, rfl⟩ := mem_tab.mp hk
    have hall : ∀ p ∈ exU, p.2.2.1 ≤ 10 := by decide +kernel
    have hj : (row exU j).2.1 ≤ 10 := by
      simp only [row]
      cases hf : exU.find? fun p => p.1 = j with
      | none => decide
      | some p => exact hall p (List.mem_of_find?_eq_some hf)
    exact ⟨(row exU j).2.1, rfl, hj.trans (by norm_num), by linarith⟩
  · obtain ⟨e, h0, h2⟩ := of_toOption_map exU_run
    obtain ⟨r, hr, hr'⟩ := Option.map_eq_some_iff.mp (Prod.mk.inj h2).2
    refine ⟨_, by rw [structureOf, runOf_ok (by omega) h0]; rfl, fun h => ?_, r, hr, hr'⟩
    have h : e.bull = [] := h
    have h3 := (Prod.mk.inj h2).1
    rw [h] at h3
    cases h3

end Verif.Props
