import Verif.Klines.Types

/-!
# Columns and derived candles (`utils/klines/technical_analysis.go`)
-/

namespace Verif.Klines
open Verif GoFloat

variable {F : Type} [GoFloat F]

/-- Models utils/klines/technical_analysis.go:8-16 `OHLC`. -/
structure OHLC (F : Type) where
  open_ : List F
  high : List F
  low : List F
  close : List F
  volume : List F
  bullMarket : List Bool
  timeUnix : List Int
  deriving DecidableEq, Repr

/-- Models utils/klines/technical_analysis.go:20-40 `GetOHLC`. -/
def GetOHLC (e : Item F) : Go (OHLC F) := do
  let n : Int := e.candles.length
  let ohlc : OHLC F :=
    { open_ := ← mk n (fl 0), high := ← mk n (fl 0), low := ← mk n (fl 0), close := ← mk n (fl 0),
      volume := ← mk n (fl 0), bullMarket := ← mk n false, timeUnix := ← mk n 0 }
  goFor 0 n ohlc fun x o => do
    let c ← idx e.candles x
    let o := { o with open_ := ← setAt o.open_ x c.open_ }
    let o := { o with high := ← setAt o.high x c.high }
    let o := { o with low := ← setAt o.low x c.low }
    let o := { o with close := ← setAt o.close x c.close }
    let o := { o with volume := ← setAt o.volume x c.volume }
    let o := { o with bullMarket := ← setAt o.bullMarket x c.isBull }
    let o := { o with timeUnix := ← setAt o.timeUnix x c.timeUnix }
    pure o

/-- Models utils/klines/technical_analysis.go:43-74 `ToHeikinAshi` (the source slice positions start as
nil pointers; here as zero candles, every one of which is overwritten). -/
def ToHeikinAshi (e : Item F) : Go (Item F) := do
  let cs ← mk (e.candles.length : Int) (Candle.zero 0)
  let cs ← goFor 0 e.candles.length cs fun index cs => do
    let candle ← idx e.candles index
    let open_ ← (if index > 1 then do
        let prev ← idx e.candles (index - 1)
        pure ((prev.open_ +. prev.close) /. fl 2)
      else pure ((candle.open_ +. candle.close) /. fl 2))
    let ha : Candle F :=
      { Candle.zero candle.timeUnix with
        open_ := open_
        close := (candle.open_ +. candle.high +. candle.low +. candle.close) /. fl 4
        high := GoFloat.max candle.high (GoFloat.max open_ candle.close)
        low := GoFloat.max candle.low (GoFloat.min open_ candle.close) }
    let ha := { ha with changePercent := (candle.close -. candle.open_) /. candle.open_ }
    let ha := if candle.close >. candle.open_ then { ha with isBull := true } else ha
    setAt cs index ha
  pure { exchange := e.exchange, interval := e.interval, symbol := "", code := "", candles := cs }

/-- Models utils/klines/technical_analysis.go:77-83 `HL2`. -/
def HL2 (e : Item F) : Go (List F) := do
  let result ← mk (e.candles.length : Int) (fl 0 : F)
  goFor 0 e.candles.length result fun i result => do
    let c ← idx e.candles i
    setAt result i ((c.high +. c.low) /. fl 2)

/-- Models utils/klines/technical_analysis.go:86-93 `HLC3`. -/
def HLC3 (e : Item F) : Go (List F) := do
  let result ← mk (e.candles.length : Int) (fl 0 : F)
  goFor 0 e.candles.length result fun i result => do
    let c ← idx e.candles i
    setAt result i ((c.high +. c.low +. c.close) /. fl 3)

/-- Models utils/klines/technical_analysis.go:96-103 `OHLC4`. -/
def OHLC4 (e : Item F) : Go (List F) := do
  let result ← mk (e.candles.length : Int) (fl 0 : F)
  goFor 0 e.candles.length result fun i result => do
    let c ← idx e.candles i
    setAt result i ((c.open_ +. c.high +. c.low +. c.close) /. fl 4)

/-! ## Closed forms -/

/-- Every candle slice is a table. -/
theorem exists_tabC (cs : List (Candle F)) : ∃ x : Nat → Candle F, cs = tab cs.length x :=
  haveI : Inhabited (Candle F) := ⟨Candle.zero 0⟩
  ⟨_, eq_tab cs⟩

theorem HL2_eq (e : Item F) :
    HL2 e = .ok (e.candles.map fun c => (c.high +. c.low) /. fl 2) := by
  obtain ⟨x, hx⟩ := exists_tabC e.candles
  unfold HL2
  generalize e.candles.length = n at hx
  rw [hx, mk_nat, map_tab, ok_bind]
  refine goFor_fill₀ _ fun k hk => ?_
  rw [idx_tab hk, ok_bind, setAt_filled hk rfl]

theorem HLC3_eq (e : Item F) :
    HLC3 e = .ok (e.candles.map fun c => (c.high +. c.low +. c.close) /. fl 3) := by
  obtain ⟨x, hx⟩ := exists_tabC e.candles
  unfold HLC3
  generalize e.candles.length = n at hx
  rw [hx, mk_nat, map_tab, ok_bind]
  refine goFor_fill₀ _ fun k hk => ?_
  rw [idx_tab hk, ok_bind, setAt_filled hk rfl]

theorem OHLC4_eq (e : Item F) :
    OHLC4 e = .ok (e.candles.map fun c => (c.open_ +. c.high +. c.low +. c.close) /. fl 4) := by
  obtain ⟨x, hx⟩ := exists_tabC e.candles
  unfold OHLC4
  generalize e.candles.length = n at hx
  rw [hx, mk_nat, map_tab, ok_bind]
  refine goFor_fill₀ _ fun k hk => ?_
  rw [idx_tab hk, ok_bind, setAt_filled hk rfl]

theorem GetOHLC_eq (e : Item F) :
    GetOHLC e = .ok
      { open_ := e.candles.map (·.open_), high := e.candles.map (·.high),
        low := e.candles.map (·.low), close := e.candles.map (·.close),
        volume := e.candles.map (·.volume), bullMarket := e.candles.map (·.isBull),
        timeUnix := e.candles.map (·.timeUnix) } := by
  obtain ⟨x, hx⟩ := exists_tabC e.candles
  unfold GetOHLC
  generalize e.candles.length = n at hx
  simp only [hx, mk_nat, map_tab, ok_bind]
  rw [goFor_acc₀ (S := fun k =>
    { open_ := filled n k (fun i => (x i).open_) (fl 0), high := filled n k (fun i => (x i).high) (fl 0),
      low := filled n k (fun i => (x i).low) (fl 0), close := filled n k (fun i => (x i).close) (fl 0),
      volume := filled n k (fun i => (x i).volume) (fl 0),
      bullMarket := filled n k (fun i => (x i).isBull) false,
      timeUnix := filled n k (fun i => (x i).timeUnix) 0 })]
  · simp only [filled_full]
  · congr 1 <;> exact (filled_zero _ _ _).symm
  · intro k hk
    simp only [idx_tab hk, ok_bind, setAt_filled (f := fun i => (x i).open_) hk rfl,
      setAt_filled (f := fun i => (x i).high) hk rfl, setAt_filled (f := fun i => (x i).low) hk rfl,
      setAt_filled (f := fun i => (x i).close) hk rfl, setAt_filled (f := fun i => (x i).volume) hk rfl,
      setAt_filled (f := fun i => (x i).isBull) hk rfl,
      setAt_filled (f := fun i => (x i).timeUnix) hk rfl, pure_eq_ok]

/-- The Heikin-Ashi open of position `i`. -/
def haOpen (x : Nat → Candle F) (i : Nat) : F :=
  if 1 < i then ((x (i - 1)).open_ +. (x (i - 1)).close) /. fl 2
  else ((x i).open_ +. (x i).close) /. fl 2

/-- The Heikin-Ashi candle of position `i`. -/
def haCandle (x : Nat → Candle F) (i : Nat) : Candle F :=
  { Candle.zero (x i).timeUnix with
    open_ := haOpen x i
    close := ((x i).open_ +. (x i).high +. (x i).low +. (x i).close) /. fl 4
    high := GoFloat.max (x i).high (GoFloat.max (haOpen x i) (x i).close)
    low := GoFloat.max (x i).low (GoFloat.min (haOpen x i) (x i).close)
    changePercent := ((x i).close -. (x i).open_) /. (x i).open_
    isBull := (x i).close >. (x i).open_ }

theorem ToHeikinAshi_tab (e : Item F) (n : Nat) (x : Nat → Candle F) (he : e.candles = tab n x) :
    ToHeikinAshi e = .ok { exchange := e.exchange, interval := e.interval, symbol := "", code := "",
                           candles := tab n (haCandle x) } := by
  unfold ToHeikinAshi
  rw [he, tab_length, mk_nat, ok_bind]
  rw [goFor_fill₀ (haCandle x)]
  · rfl
  intro k hk
  rw [idx_tab hk, ok_bind]
  have ho : (if ((k : Int) > 1) then do
        let prev ← idx (tab n x) ((k : Int) - 1)
        pure ((prev.open_ +. prev.close) /. fl 2)
      else pure (((x k).open_ +. (x k).close) /. fl 2) : Go F) = .ok (haOpen x k) := by
    unfold haOpen
    by_cases h : 1 < k
    · rw [if_pos (by omega), if_pos h, show (k : Int) - 1 = ((k - 1 : Nat) : Int) by omega,
        idx_tab (by omega)]
      rfl
    · rw [if_neg (by omega), if_neg h]; rfl
  rw [ho, ok_bind]
  refine setAt_filled hk ?_
  unfold haCandle
  by_cases h : ((x k).open_ <. (x k).close) = true
  · simp only [GoFloat.gt, h, if_true]
  · simp only [GoFloat.gt, Bool.not_eq_true] at h ⊢
    simp only [h]
    rfl

end Verif.Klines
