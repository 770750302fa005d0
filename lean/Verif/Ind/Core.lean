import Verif.Klines.Tech
import Verif.Ta.Misc
import Verif.Ta.Roll

/-!
# Indicator objects

Every indicator of the library is a struct with parameters, a candle source (`kline` or `ohlc`), and a
cache `data` that starts nil. `Calculation` fills the cache; every reading method (`GetData`,
`GetValues`, `AnalysisSide`, ...) first runs `Calculation` when the cache is empty.
-/

set_option linter.unusedSectionVars false

namespace Verif.Ind
open Verif Verif.Klines Verif.Ta GoFloat

/-! ## Sides -/

/-- Models utils/Side.go:4 `Side`. -/
abbrev Side := UInt32

/-- Models utils/Side.go:14 `Buy` (explicitly 0, with `iota = 0`). -/
def Buy : Side := 0
/-- Models utils/Side.go:15 `Sell`: `1 << iota` with `iota = 1`. -/
def Sell : Side := (1 : UInt32) <<< 1
/-- Models utils/Side.go:16 `Hold`: the same expression with `iota = 2`. -/
def Hold : Side := (1 : UInt32) <<< 2

/-- Models utils/Side.go:20-31 `Side.String`. -/
def Side.name (s : Side) : String :=
  if s = Buy then "BUY" else if s = Sell then "SELL" else if s = Hold then "HOLD" else "UNKNOWN"

/-- Models utils/Side.go:34-40 `Sides.Strings`. -/
def Strings (s : List Side) : Go (List String) := do
  let strs ← mk (s.length : Int) ""
  goFor 0 s.length strs fun x strs => do
    let v ← idx s x
    setAt strs x v.name

/-! ## Objects -/

/-- One indicator type together with the values of its parameters. Simplification: the display name is
left out. -/
structure Indicator (F : Type) where
  /-- the type of the candle source the object keeps -/
  S : Type
  /-- one record of `e.data` -/
  D : Type
  /-- what the constructor stores as source -/
  source : Item F → Go S
  /-- `Calculation`: the new value of `e.data` from the source and the old value -/
  compute : S → List D → Go (List D)

/-- An indicator object: the struct behind the pointer `e`. -/
structure Obj {F : Type} (I : Indicator F) where
  src : I.S
  data : List I.D

variable {F : Type}

/-- The constructors `New...(klineItem, ...)`: store the source, leave `data` nil. -/
def Indicator.new (I : Indicator F) (it : Item F) : Go (Obj I) := do
  let s ← I.source it
  pure { src := s, data := [] }

/-- `e.Calculation()`. -/
def Obj.Calculation {I : Indicator F} (e : Obj I) : Go (Obj I) := do
  let d ← I.compute e.src e.data
  pure { e with data := d }

/-- `if len(e.data) == 0 { e = e.Calculation() }`, the first lines of every reading method. -/
def Obj.ensure {I : Indicator F} (e : Obj I) : Go (Obj I) :=
  if e.data.length = 0 then e.Calculation else pure e

/-- A reading method: `ensure`, then a result computed from source and data without changing them.
Returns the result and the object afterwards. -/
def Obj.read {I : Indicator F} {R : Type} (r : I.S → List I.D → Go R) (e : Obj I) : Go (R × Obj I) := do
  let e ← e.ensure
  let v ← r e.src e.data
  pure (v, e)

/-- `GetData`; the method has these lines in every file of trend/, channel/, oscillator/, volume/. -/
def Obj.GetData {I : Indicator F} (e : Obj I) : Go (List I.D × Obj I) := e.read fun _ d => pure d

/-- The records of `New...(item).GetData()`. -/
def Indicator.data (I : Indicator F) (it : Item F) : Go (List I.D) := do
  let e ← I.new it
  let (d, _) ← e.GetData
  pure d

/-- A reading method called on a new object. -/
def Indicator.get (I : Indicator F) {R : Type} (r : I.S → List I.D → Go R) (it : Item F) : Go R := do
  let e ← I.new it
  let (v, _) ← e.read r
  pure v

theorem Indicator.get_of_data {I : Indicator F} {R : Type} {r : I.S → List I.D → Go R} {it : Item F}
    {s : I.S} {d : List I.D} (hs : I.source it = .ok s) (hd : I.data it = .ok d) : I.get r it = r s d := by
  simp only [Indicator.data, Indicator.new, hs, ok_bind, pure_eq_ok, Obj.GetData, Obj.read, Obj.ensure,
    List.length_nil, if_true, Obj.Calculation] at hd
  simp only [Indicator.get, Indicator.new, hs, ok_bind, pure_eq_ok, Obj.read, Obj.ensure,
    List.length_nil, if_true, Obj.Calculation]
  cases hc : I.compute s [] with
  | error p => simp [hc] at hd
  | ok d' =>
    simp only [hc, ok_bind, Except.ok.injEq] at hd ⊢
    subst hd
    cases r s d' <;> rfl

theorem Indicator.get_of_error {I : Indicator F} {R : Type} {r : I.S → List I.D → Go R} {it : Item F}
    {p : Panic} (hd : I.data it = .error p) : I.get r it = .error p := by
  simp only [Indicator.data, Indicator.new, ok_bind, pure_eq_ok, Obj.GetData, Obj.read, Obj.ensure,
    Obj.Calculation] at hd
  simp only [Indicator.get, Indicator.new, pure_eq_ok, Obj.read, Obj.ensure, Obj.Calculation]
  cases hs : I.source it with
  | error q => simpa [hs] using hd
  | ok s =>
    simp only [hs, ok_bind, List.length_nil, if_true] at hd ⊢
    cases hc : I.compute s [] with
    | error q => simpa [hc] using hd
    | ok d' => simp [hc] at hd

/-- A strategy: an indicator with the body of its `AnalysisSide` after `ensure`. -/
structure Strat (F : Type) extends Indicator F where
  sides : S → List D → Go (List Side)

/-- `AnalysisSide` (the `Data` field of its result). -/
def Strat.AnalysisSide (I : Strat F) (e : Obj I.toIndicator) : Go (List Side × Obj I.toIndicator) := e.read I.sides

/-- The sides of `New...(item).AnalysisSide()`. -/
def Strat.signals (I : Strat F) (it : Item F) : Go (List Side) := do
  let e ← I.toIndicator.new it
  let (s, _) ← I.AnalysisSide e
  pure s

theorem Strat.signals_eq (I : Strat F) (it : Item F) : I.signals it = I.toIndicator.get I.sides it := rfl

/-! ## Loop shapes -/

section loops
variable {D : Type}

/-- `for i := 0; i < n; i++ { e.data = append(e.data, rec(i)) }`. -/
def appendLoop (n : Int) (data : List D) (rec : Int → Go D) : Go (List D) :=
  goFor 0 n data fun i data => do
    let r ← rec i
    pure (data ++ [r])

/-- `data := make([]D, len); for i := 0; i < n; i++ { data[i] = rec(i) }`. -/
def makeLoop (len n : Int) (zero : D) (rec : Int → Go D) : Go (List D) := do
  let d ← mk len zero
  goFor 0 n d fun i d => do
    let r ← rec i
    setAt d i r

/-- `sides := make([]Side, n); for i, v := range data { if i < from { continue }; sides[i] = rule(i,
data[i-1], v) }`. -/
def sideLoop (n : Int) (start : Int) (data : List D) (rule : Int → D → D → Go Side) :
    Go (List Side) := do
  let sides ← mk n Buy
  goFor 0 data.length sides fun i sides => do
    let v ← idx data i
    if i < start then pure sides
    else
      let prev ← idx data (i - 1)
      let s ← rule i prev v
      setAt sides i s

theorem appendLoop_tab {n : Nat} {data : List D} {rec : Int → Go D} (f : Nat → D)
    (h : ∀ k, k < n → rec (k : Int) = .ok (f k)) :
    appendLoop n data rec = .ok (data ++ tab n f) := by
  unfold appendLoop
  rw [goFor_acc₀ (S := fun k => data ++ tab k f) (by simp)]
  intro k hk
  simp only [h k hk, ok_bind, pure_eq_ok, tab_succ, List.append_assoc]

theorem makeLoop_tab {n : Nat} {z : D} {rec : Int → Go D} (f : Nat → D)
    (h : ∀ k, k < n → rec (k : Int) = .ok (f k)) :
    makeLoop n n z rec = .ok (tab n f) := by
  unfold makeLoop
  rw [mk_nat, ok_bind]
  refine goFor_fill₀ f fun k hk => ?_
  rw [h k hk, ok_bind, setAt_filled hk rfl]

theorem sideLoop_tab {n : Nat} {x : Nat → D} {rule : Int → D → D → Go Side}
    (f : Nat → Side) (h : ∀ k, k + 1 < n → rule ((k + 1 : Nat) : Int) (x k) (x (k + 1)) = .ok (f (k + 1)))
    (h0 : f 0 = Buy) :
    sideLoop n 1 (tab n x) rule = .ok (tab n f) := by
  unfold sideLoop
  rw [mk_nat, ok_bind, tab_length]
  refine goFor_fill₀ f fun k hk => ?_
  rw [idx_tab hk, ok_bind]
  cases k with
  | zero =>
    rw [if_pos (by simp)]
    refine congrArg Except.ok (tab_ext fun i _ => ?_)
    by_cases hi : i = 0
    · subst hi; simp [h0]
    · simp [hi]
  | succ k =>
    have e : ((k + 1 : Nat) : Int) - 1 = (k : Int) := by omega
    rw [if_neg (by omega), e, idx_tab (by omega), ok_bind, h k hk, ok_bind, setAt_filled hk rfl]

end loops

/-! ## Columns -/

section cols
variable [GoFloat F]

/-- The columns of a candle series. -/
def cl (x : Nat → Candle F) (i : Nat) : F := (x i).close
@[inherit_doc cl] def op (x : Nat → Candle F) (i : Nat) : F := (x i).open_
@[inherit_doc cl] def hi (x : Nat → Candle F) (i : Nat) : F := (x i).high
@[inherit_doc cl] def lo (x : Nat → Candle F) (i : Nat) : F := (x i).low
@[inherit_doc cl] def vo (x : Nat → Candle F) (i : Nat) : F := (x i).volume
@[inherit_doc cl] def ti (x : Nat → Candle F) (i : Nat) : Int := (x i).timeUnix
@[inherit_doc cl] def bu (x : Nat → Candle F) (i : Nat) : Bool := (x i).isBull

/-- The columns of an item whose candles are tabulated. -/
def ohlcOf (n : Nat) (x : Nat → Candle F) : OHLC F :=
  { open_ := tab n (op x), high := tab n (hi x), low := tab n (lo x), close := tab n (cl x),
    volume := tab n (vo x), bullMarket := tab n (bu x), timeUnix := tab n (ti x) }

theorem GetOHLC_tab {it : Item F} {n : Nat} {x : Nat → Candle F} (h : it.candles = tab n x) :
    GetOHLC it = .ok (ohlcOf n x) := by
  rw [GetOHLC_eq, h]; simp only [map_tab]; rfl

theorem HL2_tab {it : Item F} {n : Nat} {x : Nat → Candle F} (h : it.candles = tab n x) :
    HL2 it = .ok (tab n fun i => (hi x i +. lo x i) /. fl 2) := by
  rw [HL2_eq, h]; simp only [map_tab]; rfl

theorem HLC3_tab {it : Item F} {n : Nat} {x : Nat → Candle F} (h : it.candles = tab n x) :
    HLC3 it = .ok (tab n fun i => (hi x i +. lo x i +. cl x i) /. fl 3) := by
  rw [HLC3_eq, h]; simp only [map_tab]; rfl

/-- `time.Time{}.Unix()`: the timestamp of a record that was never written. -/
def zeroUnix : Int := -62135596800

/-- `time.Unix(e.kline.Candles[i].TimeUnix, 0)` as Unix seconds. -/
def candleTime (it : Item F) (i : Int) : Go Int := do
  let c ← idx it.candles i
  pure c.timeUnix

theorem candleTime_tab {it : Item F} {n k : Nat} {x : Nat → Candle F} (h : it.candles = tab n x)
    (hk : k < n) : candleTime it k = .ok (ti x k) := by
  unfold candleTime; rw [h, idx_tab hk]; rfl

end cols

/-- The record type `struct { Time time.Time; Value float64 }`, shared by every indicator with a single
value per candle. -/
structure Rec (F : Type) where
  time : Int
  value : F
  deriving DecidableEq, Repr

/-- The zero value of a record. -/
def Rec.zero [GoFloat F] : Rec F := ⟨zeroUnix, fl 0⟩

/-- `val := make([]float64, len(e.data)); for i, v := range e.data { val[i] = proj(v) }`, the loop of the
`GetValues` methods. -/
def valuesLoop [GoFloat F] {D : Type} (proj : D → F) (data : List D) : Go (List F) := do
  let val ← mk (data.length : Int) (fl 0)
  goFor 0 data.length val fun i val => do
    let v ← idx data i
    setAt val i (proj v)

theorem valuesLoop_tab [GoFloat F] {D : Type} (proj : D → F) (n : Nat) (f : Nat → D) :
    valuesLoop proj (tab n f) = .ok (tab n fun i => proj (f i)) := by
  unfold valuesLoop
  rw [tab_length, mk_nat, ok_bind]
  exact goFor_fill₀ _ fun k hk => by rw [idx_tab hk, ok_bind, setAt_filled hk rfl]

/-- `for _, v := range e.data { result = append(result, proj(v)) }` on a nil result. -/
def valuesAppend [GoFloat F] {D : Type} (proj : D → F) (data : List D) : Go (List F) :=
  appendLoop data.length [] fun i => do
    let v ← idx data i
    pure (proj v)

theorem valuesAppend_tab [GoFloat F] {D : Type} (proj : D → F) (n : Nat) (f : Nat → D) :
    valuesAppend proj (tab n f) = .ok (tab n fun i => proj (f i)) := by
  unfold valuesAppend
  rw [tab_length, appendLoop_tab (fun i => proj (f i)) fun k hk => by rw [idx_tab hk]; rfl]
  simp

/-! ## What `Calculation` computes -/

section spec
variable [GoFloat F]

/-- Where `ok n` holds for the number of candles, `Calculation` succeeds and *replaces* the data by one
record per candle, record `i` being `G x i`; elsewhere it panics. -/
def Makes (I : Indicator F) (ok : Nat → Prop) (G : (Nat → Candle F) → Nat → I.D) : Prop :=
  ∀ (it : Item F) (n : Nat) (x : Nat → Candle F), it.candles = tab n x →
    ∃ s, I.source it = .ok s ∧
      (ok n → ∀ data, I.compute s data = .ok (tab n (G x))) ∧
      (¬ ok n → ∀ data, ∃ p, I.compute s data = .error p)

/-- The same for a `Calculation` that *appends* the records to the old data. -/
def Appends (I : Indicator F) (ok : Nat → Prop) (G : (Nat → Candle F) → Nat → I.D) : Prop :=
  ∀ (it : Item F) (n : Nat) (x : Nat → Candle F), it.candles = tab n x →
    ∃ s, I.source it = .ok s ∧
      (ok n → ∀ data, I.compute s data = .ok (data ++ tab n (G x))) ∧
      (¬ ok n → ∀ data, ∃ p, I.compute s data = .error p)

/-- The list repeated `m` times. -/
def reps {α : Type} (m : Nat) (l : List α) : List α := (List.replicate m l).flatten

theorem reps_zero {α : Type} (l : List α) : reps 0 l = [] := rfl

theorem reps_succ {α : Type} (m : Nat) (l : List α) : reps (m + 1) l = reps m l ++ l := by
  simp [reps, List.replicate_succ']

/-- Like `Appends`, but only claimed for caches that `Calculation` itself has filled, any number of times:
what is appended may depend on what is there. -/
def Grows (I : Indicator F) (ok : Nat → Prop) (G : (Nat → Candle F) → Nat → I.D) : Prop :=
  ∀ (it : Item F) (n : Nat) (x : Nat → Candle F), it.candles = tab n x →
    ∃ s, I.source it = .ok s ∧
      (ok n → ∀ m, I.compute s (reps m (tab n (G x))) = .ok (reps (m + 1) (tab n (G x)))) ∧
      (¬ ok n → ∀ data, ∃ p, I.compute s data = .error p)

theorem Appends.grows {I : Indicator F} {ok} {G} (h : Appends I ok G) : Grows I ok G := by
  intro it n x hx
  obtain ⟨s, hs, h1, h2⟩ := h it n x hx
  exact ⟨s, hs, fun hok m => by rw [h1 hok, reps_succ], h2⟩

/-- The result of `New...(item).GetData()` in both cases. -/
def Yields (I : Indicator F) (ok : Nat → Prop) (G : (Nat → Candle F) → Nat → I.D) : Prop :=
  ∀ (it : Item F) (n : Nat) (x : Nat → Candle F), it.candles = tab n x →
    (ok n → I.data it = .ok (tab n (G x))) ∧ (¬ ok n → ∃ p, I.data it = .error p)

theorem Obj.GetData_fresh {I : Indicator F} {s : I.S} {d : List I.D} (h : I.compute s [] = .ok d) :
    Obj.GetData (⟨s, []⟩ : Obj I) = .ok (d, ⟨s, d⟩) := by
  simp [Obj.GetData, Obj.read, Obj.ensure, Obj.Calculation, h]

theorem Obj.GetData_fresh_error {I : Indicator F} {s : I.S} {p : Panic} (h : I.compute s [] = .error p) :
    Obj.GetData (⟨s, []⟩ : Obj I) = .error p := by
  simp [Obj.GetData, Obj.read, Obj.ensure, Obj.Calculation, h]

theorem Makes.yields {I : Indicator F} {ok} {G} (h : Makes I ok G) : Yields I ok G := by
  intro it n x hx
  obtain ⟨s, hs, h1, h2⟩ := h it n x hx
  refine ⟨fun hok => ?_, fun hok => ?_⟩
  · simp [Indicator.data, Indicator.new, hs, Obj.GetData_fresh (h1 hok [])]
  · obtain ⟨p, hp⟩ := h2 hok []
    exact ⟨p, by simp [Indicator.data, Indicator.new, hs, Obj.GetData_fresh_error hp]⟩

theorem Grows.yields {I : Indicator F} {ok} {G} (h : Grows I ok G) : Yields I ok G := by
  intro it n x hx
  obtain ⟨s, hs, h1, h2⟩ := h it n x hx
  refine ⟨fun hok => ?_, fun hok => ?_⟩
  · have := h1 hok 0
    rw [reps_succ, reps_zero, List.nil_append] at this
    simp [Indicator.data, Indicator.new, hs, Obj.GetData_fresh this]
  · obtain ⟨p, hp⟩ := h2 hok []
    exact ⟨p, by simp [Indicator.data, Indicator.new, hs, Obj.GetData_fresh_error hp]⟩

theorem Appends.yields {I : Indicator F} {ok} {G} (h : Appends I ok G) : Yields I ok G := h.grows.yields

end spec

end Verif.Ind
