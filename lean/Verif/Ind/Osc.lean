import Verif.Ind.Volume

/-!
# Indicators of `oscillator/`
-/

set_option linter.unusedSectionVars false

namespace Verif.Ind
open Verif Verif.Klines Verif.Ta GoFloat

variable {F : Type} [GoFloat F]

/-- The rule "`a` crosses from strictly below `b` to strictly above: buy; the reverse: sell". Used by many
`AnalysisSide` methods, each of which cites it. -/
def crossRule (a b pa pb : F) : Side :=
  if a >. b && pa <. pb then Buy else if a <. b && pa >. pb then Sell else Hold

/-! ## AbsolutePriceOscillator -/

/-- Models oscillator/AbsolutePriceOscillator.go:34-51 `Calculation`. -/
def APO.Calculation (fastP slowP : Int) (e : Item F) (_ : List (Rec F)) : Go (List (Rec F)) := do
  let ohlc ← GetOHLC e
  let fast ← Ema fastP ohlc.close
  let slow ← Ema slowP ohlc.close
  let apo ← Subtract fast slow
  makeRecs e apo

/-- Models oscillator/AbsolutePriceOscillator.go:54-80 `AnalysisSide`; the same text is in
AwesomeOscillator.go:57-83. -/
def zeroSides (e : Item F) (data : List (Rec F)) : Go (List Side) :=
  sideLoop e.candles.length 1 data fun _ prev v => pure (crossRule v.value (fl 0) prev.value (fl 0))

/-- `AbsolutePriceOscillator`. -/
abbrev APO (fastP slowP : Int) : Strat F :=
  { recInd (APO.Calculation fastP slowP) with sides := zeroSides }

/-- The record of one candle. -/
def APO.out (fastP slowP : Int) (x : Nat → Candle F) (i : Nat) : Rec F :=
  ⟨ti x i, subF (emaF fastP (cl x) i) (emaF slowP (cl x) i)⟩

theorem APO.makes (fastP slowP : Int) :
    Makes (APO (F := F) fastP slowP).toIndicator (fun _ => True) (APO.out fastP slowP) := by
  intro it n x hx
  refine ⟨it, rfl, fun _ data => ?_, fun h => absurd trivial h⟩
  show APO.Calculation fastP slowP it data = _
  simp only [APO.Calculation, GetOHLC_tab hx, ohlcOf, Ema_tab, Subtract_tab, ok_bind, Nat.le_refl, if_true,
    makeRecs_tab hx]
  rfl

/-! ## AwesomeOscillator -/

/-- Models oscillator/AwesomeOscillator.go:36-54 `Calculation`. -/
def Awesome.Calculation (e : Item F) (data : List (Rec F)) : Go (List (Rec F)) := do
  let ohlc ← GetOHLC e
  let s ← Add ohlc.low ohlc.high
  let medianPrice ← DivideBy s (fl 2)
  let sma5 ← Ema 5 medianPrice
  let sma34 ← Ema 34 medianPrice
  let ao ← Subtract sma5 sma34
  appendRecs e ao data

/-- `AwesomeOscillator`. -/
abbrev Awesome : Strat F := { recInd Awesome.Calculation with sides := zeroSides }

/-- Median price as `AwesomeOscillator` computes it. -/
def medF (x : Nat → Candle F) (i : Nat) : F := (lo x i +. hi x i) *. (fl 1 /. fl 2)

/-- The record of one candle. -/
def Awesome.out (x : Nat → Candle F) (i : Nat) : Rec F :=
  ⟨ti x i, subF (emaF 5 (medF x) i) (emaF 34 (medF x) i)⟩

theorem Awesome.appends : Appends (Awesome (F := F)).toIndicator (fun _ => True) Awesome.out := by
  intro it n x hx
  refine ⟨it, rfl, fun _ data => ?_, fun h => absurd trivial h⟩
  show Awesome.Calculation it data = _
  simp only [Awesome.Calculation, GetOHLC_tab hx, ohlcOf, Ema_tab, Subtract_tab, Add_tab, DivideBy_tab,
    ok_bind, Nat.le_refl, if_true, appendRecs_tab hx]
  rfl

/-! ## ChaikinOscillator -/

/-- Models oscillator/ChaikinOscillator.go `ChaikinOscillatorData`. -/
structure Chaikin.Data (F : Type) where
  time : Int
  value : F
  ad : F
  deriving DecidableEq, Repr

/-- Models oscillator/ChaikinOscillator.go:51-69 `Calculation`. -/
def Chaikin.Calculation (fastP slowP : Int) (e : Item F) (data : List (Chaikin.Data F)) :
    Go (List (Chaikin.Data F)) := do
  let ad ← AD.GetValues e
  let fastEMA ← Ema fastP ad
  let slowEMA ← Ema slowP ad
  let co ← Subtract fastEMA slowEMA
  appendLoop co.length data fun i => do
    let t ← candleTime e i
    let v ← idx co i
    let a ← idx ad i
    pure ⟨t, v, a⟩

/-- Models oscillator/ChaikinOscillator.go:72-108 `AnalysisSide`. -/
def Chaikin.sides (e : Item F) (data : List (Chaikin.Data F)) : Go (List Side) :=
  sideLoop e.candles.length 1 data fun _ prev v => pure (crossRule v.value (fl 0) prev.value (fl 0))

/-- `ChaikinOscillator`. -/
abbrev Chaikin (fastP slowP : Int) : Strat F :=
  { S := Item F, D := Chaikin.Data F, source := pure, compute := Chaikin.Calculation fastP slowP,
    sides := Chaikin.sides }

/-- The record of one candle. -/
def Chaikin.out (fastP slowP : Int) (x : Nat → Candle F) (i : Nat) : Chaikin.Data F :=
  ⟨ti x i, subF (emaF fastP (adF x) i) (emaF slowP (adF x) i), adF x i⟩

theorem Chaikin.appends (fastP slowP : Int) :
    Appends (Chaikin (F := F) fastP slowP).toIndicator (fun _ => True) (Chaikin.out fastP slowP) := by
  intro it n x hx
  refine ⟨it, rfl, fun _ data => ?_, fun h => absurd trivial h⟩
  show Chaikin.Calculation fastP slowP it data = _
  simp only [Chaikin.Calculation, AD.GetValues_tab hx, Ema_tab, Subtract_tab, ok_bind, Nat.le_refl,
    if_true, tab_length]
  exact appendLoop_tab _ fun k hk => by simp only [candleTime_tab hx hk, idx_tab hk, ok_bind]; rfl

/-! ## PercentagePriceOscillator -/

/-- Models oscillator/PercentagePriceOscillator.go `PercentagePriceOscillatorData`. -/
structure PPO.Data (F : Type) where
  time : Int
  ppo : F
  signal : F
  histogram : F
  deriving DecidableEq, Repr

/-- Models oscillator/PercentagePriceOscillator.go:55-79 `Calculation`. -/
def PPO.Calculation (fastP slowP signalP : Int) (e : Item F) (data : List (PPO.Data F)) :
    Go (List (PPO.Data F)) := do
  let ohlc ← GetOHLC e
  let fastEma ← Ema fastP ohlc.close
  let slowEma ← Ema slowP ohlc.close
  let d ← Subtract fastEma slowEma
  let q ← Divide d slowEma
  let ppo ← MultiplyBy q (fl 100)
  let signal ← Ema signalP ppo
  let histogram ← Subtract ppo signal
  appendLoop ppo.length data fun i => do
    let t ← candleTime e i
    let p ← idx ppo i
    let s ← idx signal i
    let h ← idx histogram i
    pure ⟨t, p, s, h⟩

/-- Models oscillator/PercentagePriceOscillator.go:84-110 `AnalysisSide`. -/
def PPO.sides (e : Item F) (data : List (PPO.Data F)) : Go (List Side) :=
  sideLoop e.candles.length 1 data fun _ prev v => pure (crossRule v.ppo v.signal prev.ppo prev.signal)

/-- `PercentagePriceOscillator`. -/
abbrev PPO (fastP slowP signalP : Int) : Strat F :=
  { S := Item F, D := PPO.Data F, source := pure, compute := PPO.Calculation fastP slowP signalP,
    sides := PPO.sides }

/-- The percentage line. -/
def ppoF (fastP slowP : Int) (x : Nat → Candle F) (i : Nat) : F :=
  safeDiv (subF (emaF fastP (cl x) i) (emaF slowP (cl x) i)) (emaF slowP (cl x) i) *. fl 100

/-- The record of one candle. -/
def PPO.out (fastP slowP signalP : Int) (x : Nat → Candle F) (i : Nat) : PPO.Data F :=
  ⟨ti x i, ppoF fastP slowP x i, emaF signalP (ppoF fastP slowP x) i,
    subF (ppoF fastP slowP x i) (emaF signalP (ppoF fastP slowP x) i)⟩

theorem PPO.appends (fastP slowP signalP : Int) :
    Appends (PPO (F := F) fastP slowP signalP).toIndicator (fun _ => True) (PPO.out fastP slowP signalP) := by
  intro it n x hx
  refine ⟨it, rfl, fun _ data => ?_, fun h => absurd trivial h⟩
  show PPO.Calculation fastP slowP signalP it data = _
  simp only [PPO.Calculation, GetOHLC_tab hx, ohlcOf, Ema_tab, Subtract_tab, Divide_tab, MultiplyBy_tab,
    ok_bind, Nat.le_refl, if_true, tab_length]
  exact appendLoop_tab _ fun k hk => by simp only [candleTime_tab hx hk, idx_tab hk, ok_bind]; rfl

/-! ## VolumeOscillator -/

/-- Models utils/ta/ta.go:1096-1101 `Nzs` by its result. The function overwrites its argument; here the
argument is the fresh column of `GetOHLC`, which nothing else refers to. The in-place version is
`Ta.NzsH` in Ta/Heap.lean. -/
def Nzs (vals : List F) (r : F) : Go (List F) :=
  goFor 0 vals.length vals fun i vals => do
    let v ← idx vals i
    setAt vals i (Nz v r)

theorem Nzs_tab (n : Nat) (x : Nat → F) (r : F) : Nzs (tab n x) r = .ok (tab n fun i => Nz (x i) r) := by
  unfold Nzs
  rw [tab_length]
  have e0 : tab n x = tab n (fun j => if j < 0 then Nz (x j) r else x j) := tab_ext fun i _ => by simp
  rw [goFor_acc₀ (S := fun k => tab n (fun j => if j < k then Nz (x j) r else x j)) e0.symm]
  · exact congrArg Except.ok (tab_ext fun i hi => by simp [hi])
  · intro k hk
    rw [idx_tab hk, ok_bind, setAt_tab hk]
    refine congrArg Except.ok (tab_ext fun i _ => ?_)
    by_cases h : i = k
    · subst h; simp
    · simp only [h, if_false, show i < k + 1 ↔ i < k by omega]

/-- Models oscillator/VolumeOscillator.go:50-67 `Calculation`. -/
def VolOsc.Calculation (shortP longP : Int) (e : Item F) (_ : List (Rec F)) : Go (List (Rec F)) := do
  let ohlc ← GetOHLC e
  let volumes ← Nzs ohlc.volume (fl 0)
  let short ← Ema shortP volumes
  let long ← Ema longP volumes
  let d ← Subtract short long
  let q ← Divide d long
  let oscs ← MultiplyBy q (fl 100)
  makeRecs e oscs

/-- `VolumeOscillator`. -/
abbrev VolOsc (shortP longP : Int) : Indicator F := recInd (VolOsc.Calculation shortP longP)

/-- Volume with NaN replaced. -/
def nzVol (x : Nat → Candle F) (i : Nat) : F := Nz (vo x i) (fl 0)

/-- The record of one candle. -/
def VolOsc.out (shortP longP : Int) (x : Nat → Candle F) (i : Nat) : Rec F :=
  ⟨ti x i, safeDiv (subF (emaF shortP (nzVol x) i) (emaF longP (nzVol x) i)) (emaF longP (nzVol x) i) *. fl 100⟩

theorem VolOsc.makes (shortP longP : Int) :
    Makes (VolOsc (F := F) shortP longP) (fun _ => True) (VolOsc.out shortP longP) := by
  intro it n x hx
  refine ⟨it, rfl, fun _ data => ?_, fun h => absurd trivial h⟩
  show VolOsc.Calculation shortP longP it data = _
  simp only [VolOsc.Calculation, GetOHLC_tab hx, ohlcOf, Nzs_tab, Ema_tab, Subtract_tab, Divide_tab,
    MultiplyBy_tab, ok_bind, Nat.le_refl, if_true, makeRecs_tab hx]
  rfl

/-! ## StochasticOscillator -/

/-- Models oscillator/StochasticOscillator.go `StochasticOscillatorData`. -/
structure KD (F : Type) where
  time : Int
  k : F
  d : F
  deriving DecidableEq, Repr

/-- Models oscillator/StochasticOscillator.go:50-77 `Calculation`. -/
def Stoch.Calculation (period : Int) (e : Item F) (data : List (KD F)) : Go (List (KD F)) := do
  let ohlc ← GetOHLC e
  let (k, d) ← Stochastic ohlc.close ohlc.high ohlc.low period
  appendLoop k.length data fun i => do
    let t ← candleTime e i
    let kk ← idx k i
    let dd ← idx d i
    pure ⟨t, kk, dd⟩

/-- Models oscillator/StochasticOscillator.go:88-114 `AnalysisSide`; the same text is in
trend/StochRsi.go:70-96. -/
def KD.sides (e : Item F) (data : List (KD F)) : Go (List Side) :=
  sideLoop e.candles.length 1 data fun _ prev v => pure (crossRule v.k v.d prev.k prev.d)

/-- `StochasticOscillator`. -/
abbrev Stoch (period : Int) : Strat F :=
  { S := Item F, D := KD F, source := pure, compute := Stoch.Calculation period, sides := KD.sides }

/-- `%K` at one candle. -/
def stochK (period : Int) (x : Nat → Candle F) (i : Nat) : F := stochF period.toNat (cl x) (hi x) (lo x) i

/-- The record of one candle. -/
def Stoch.out (period : Int) (x : Nat → Candle F) (i : Nat) : KD F :=
  ⟨ti x i, stochK period x i, smaF 3 (stochK period x) i⟩

theorem Stoch.appends (period : Int) :
    Appends (Stoch (F := F) period).toIndicator (okW period) (Stoch.out period) := by
  intro it n x hx
  refine ⟨it, rfl, fun h data => ?_, fun h data => ?_⟩
  · show Stoch.Calculation period it data = _
    simp only [Stoch.Calculation, GetOHLC_tab hx, ohlcOf, Stochastic_ok _ _ _ h, ok_bind, tab_length]
    exact appendLoop_tab _ fun k hk => by simp only [candleTime_tab hx hk, idx_tab hk, ok_bind]; rfl
  · show ∃ p, Stoch.Calculation period it data = _
    simp only [Stoch.Calculation, GetOHLC_tab hx, ohlcOf, ok_bind]
    exact err_bind (Stochastic_err _ _ _ h)

/-! ## WilliamsR -/

/-- Models oscillator/WilliamsR.go:48-73 `Calculation`. -/
def Williams.Calculation (period : Int) (e : Item F) (data : List (Rec F)) : Go (List (Rec F)) := do
  let ohlc ← GetOHLC e
  let highestHigh ← Max period ohlc.high
  let lowestLow ← Min period ohlc.low
  let result ← makeLoop ohlc.close.length ohlc.close.length (fl 0) fun i => do
    let h ← idx highestHigh i
    let c ← idx ohlc.close i
    let l ← idx lowestLow i
    pure ((h -. c) /. (h -. l) *. fl (-100))
  appendRecs e result data

/-- Models oscillator/WilliamsR.go:78-104 `AnalysisSide`. -/
def Williams.sides (e : Item F) (data : List (Rec F)) : Go (List Side) :=
  sideLoop e.candles.length 1 data fun _ prev v =>
    pure (if v.value <. fl (-80) && prev.value >. fl (-80) then Buy
      else if v.value >. fl (-20) && prev.value <. fl (-20) then Sell else Hold)

/-- `WilliamsR`. -/
abbrev Williams (period : Int) : Strat F :=
  { recInd (Williams.Calculation period) with sides := Williams.sides }

/-- `%R` at one candle. -/
def williamsF (period : Int) (x : Nat → Candle F) (i : Nat) : F :=
  (maxF period.toNat (hi x) i -. cl x i) /. (maxF period.toNat (hi x) i -. minF period.toNat (lo x) i)
    *. fl (-100)

/-- The record of one candle. -/
def Williams.out (period : Int) (x : Nat → Candle F) (i : Nat) : Rec F := ⟨ti x i, williamsF period x i⟩

theorem Williams.appends (period : Int) :
    Appends (Williams (F := F) period).toIndicator (okW period) (Williams.out period) := by
  intro it n x hx
  refine ⟨it, rfl, fun h data => ?_, fun h data => ?_⟩
  · show Williams.Calculation period it data = _
    simp only [Williams.Calculation, GetOHLC_tab hx, ohlcOf, Max_ok _ h, Min_ok _ h, ok_bind, tab_length]
    rw [makeLoop_tab (williamsF period x) fun k hk => by simp only [idx_tab hk, ok_bind]; rfl, ok_bind,
      appendRecs_tab hx]
    rfl
  · show ∃ p, Williams.Calculation period it data = _
    simp only [Williams.Calculation, GetOHLC_tab hx, ohlcOf, ok_bind]
    exact err_bind (Max_err _ h)

/-! ## ProjectionOscillator -/

/-- Models utils/ta/ta.go:658-668 `GenerateNumbers(0, float64(count), 1)`, the only call in the library
(oscillator/ProjectionOscillator.go:58). Simplification: the element count `int(math.Round((end-begin)/step))` is taken
to be `count`, which is exact for `count < 2^53`. -/
def GenerateNumbers01 (count : Nat) : Go (List F) :=
  makeLoop count count (fl 0) fun i => pure (fl 0 +. (fl 1 *. fl i))

/-- Models oscillator/ProjectionOscillator.go `ProjectionOscillatorData`. -/
structure Projection.Data (F : Type) where
  time : Int
  po : F
  spo : F
  deriving DecidableEq, Repr

/-- Models oscillator/ProjectionOscillator.go:49-78 `Calculation`. -/
def Projection.Calculation (period smooth : Int) (e : Item F) (data : List (Projection.Data F)) :
    Go (List (Projection.Data F)) := do
  let ohlc ← GetOHLC e
  let x ← GenerateNumbers01 (F := F) ohlc.close.length
  let (mHigh, _) ← MovingLeastSquare period x ohlc.high
  let (mLow, _) ← MovingLeastSquare period x ohlc.low
  let th ← Multiply mHigh x
  let vHigh ← Add ohlc.high th
  let tl ← Multiply mLow x
  let vLow ← Add ohlc.low tl
  let pu ← Max period vHigh
  let pl ← Min period vLow
  let cp ← Subtract ohlc.close pl
  let num ← MultiplyBy cp (fl 100)
  let den ← Subtract pu pl
  let po ← Divide num den
  let spo ← Ema smooth po
  appendLoop po.length data fun i => do
    let t ← candleTime e i
    let p ← idx po i
    let s ← idx spo i
    pure ⟨t, p, s⟩

/-- Models oscillator/ProjectionOscillator.go:81-106 `AnalysisSide`. The loop does not read the previous
record; reading it (as `sideLoop` does) cannot fail for `i ≥ 1`. -/
def Projection.sides (e : Item F) (data : List (Projection.Data F)) : Go (List Side) :=
  sideLoop e.candles.length 1 data fun _ _ v =>
    pure (if v.po >. v.spo then Buy else if v.po <. v.spo then Sell else Hold)

/-- `ProjectionOscillator`. -/
abbrev Projection (period smooth : Int) : Strat F :=
  { S := Item F, D := Projection.Data F, source := pure, compute := Projection.Calculation period smooth,
    sides := Projection.sides }

/-- The abscissa of candle `i`. -/
def absc (i : Nat) : F := fl 0 +. (fl 1 *. fl (i : Int))

/-- The upper projection of candle `i`. -/
def projHi (p : Nat) (x : Nat → Candle F) (i : Nat) : F := hi x i +. mlsM p absc (hi x) i *. absc i
/-- The lower projection of candle `i`. -/
def projLo (p : Nat) (x : Nat → Candle F) (i : Nat) : F := lo x i +. mlsM p absc (lo x) i *. absc i

/-- The oscillator at one candle. -/
def projF (p : Nat) (x : Nat → Candle F) (i : Nat) : F :=
  safeDiv (subF (cl x i) (minF p (projLo p x) i) *. fl 100)
    (subF (maxF p (projHi p x) i) (minF p (projLo p x) i))

/-- The record of one candle. -/
def Projection.out (period smooth : Int) (x : Nat → Candle F) (i : Nat) : Projection.Data F :=
  ⟨ti x i, projF period.toNat x i, emaF smooth (projF period.toNat x) i⟩

theorem GenerateNumbers01_tab (n : Nat) : GenerateNumbers01 (F := F) n = .ok (tab n absc) :=
  makeLoop_tab _ fun _ _ => rfl

theorem MovingLeastSquare_ok {p : Int} {n : Nat} (x y : Nat → F) (h : okW p n) :
    MovingLeastSquare p (tab n x) (tab n y) = .ok (tab n (mlsM p.toNat x y), tab n (mlsB p.toNat x y)) := by
  have := MovingLeastSquare_tab p.toNat n x y
  rwa [toNat_cast (by rcases h with h | h <;> omega)] at this

theorem Projection.appends (period smooth : Int) :
    Appends (Projection (F := F) period smooth).toIndicator (okW period) (Projection.out period smooth) := by
  intro it n x hx
  refine ⟨it, rfl, fun h data => ?_, fun h data => ?_⟩
  · show Projection.Calculation period smooth it data = _
    simp only [Projection.Calculation, GetOHLC_tab hx, ohlcOf, tab_length, GenerateNumbers01_tab,
      MovingLeastSquare_ok _ _ h, Multiply_tab, Add_tab, Max_ok _ h, Min_ok _ h, Subtract_tab, MultiplyBy_tab,
      Divide_tab, Ema_tab, Nat.le_refl, if_true, ok_bind]
    exact appendLoop_tab _ fun k hk => by simp only [candleTime_tab hx hk, idx_tab hk, ok_bind]; rfl
  · show ∃ p, Projection.Calculation period smooth it data = _
    simp only [Projection.Calculation, GetOHLC_tab hx, ohlcOf, tab_length, GenerateNumbers01_tab, ok_bind]
    by_cases hp : period < 0
    · refine bind_err _ fun a => bind_err _ fun b => bind_err _ fun c => bind_err _ fun d => bind_err _ fun e =>
        bind_err _ fun f => err_bind ⟨_, Max_neg hp _⟩
    · obtain ⟨q, rfl⟩ : ∃ q : Nat, period = q := ⟨period.toNat, by omega⟩
      simp only [MovingLeastSquare_tab, Multiply_tab, Add_tab, Nat.le_refl, if_true, ok_bind]
      exact err_bind (Max_err _ h)

/-! ## IchimokuCloud -/

/-- Models oscillator/IchimokuCloud.go `IchimokuCloudData`. -/
structure Ichimoku.Data (F : Type) where
  time : Int
  conversion : F
  base : F
  spanA : F
  spanB : F
  lagging : F
  deriving DecidableEq, Repr

/-- `ta.DivideBy(ta.Add(ta.Max(p, high), ta.Min(q, low)), 2)`, the expression of the three middle lines. -/
def Ichimoku.mid (p q : Int) (high low : List F) : Go (List F) := do
  let h ← Max p high
  let l ← Min q low
  let s ← Add h l
  DivideBy s (fl 2)

/-- Models oscillator/IchimokuCloud.go:61-93 `Calculation`. -/
def Ichimoku.Calculation (convP spanBP lagP : Int) (e : Item F) (data : List (Ichimoku.Data F)) :
    Go (List (Ichimoku.Data F)) := do
  let ohlc ← GetOHLC e
  let conversionLine ← Ichimoku.mid 9 convP ohlc.high ohlc.low
  let baseLine ← Ichimoku.mid 26 26 ohlc.high ohlc.low
  let s ← Add conversionLine baseLine
  let leadingSpanA ← DivideBy s (fl 2)
  let leadingSpanB ← Ichimoku.mid spanBP spanBP ohlc.high ohlc.low
  let laggingLine ← ShiftRight lagP ohlc.close
  appendLoop conversionLine.length data fun i => do
    let t ← candleTime e i
    let c ← idx conversionLine i
    let b ← idx baseLine i
    let sa ← idx leadingSpanA i
    let sb ← idx leadingSpanB i
    let l ← idx laggingLine i
    pure ⟨t, c, b, sa, sb, l⟩

/-- The rule of oscillator/IchimokuCloud.go:129-135. -/
def Ichimoku.rule (close prevClose : F) (prev v : Ichimoku.Data F) : Side :=
  if close >. v.spanA && close >. v.spanB && prevClose <. prev.spanA && prevClose <. prev.spanB then Buy
  else if close <. v.spanA && close <. v.spanB && prevClose >. prev.spanA && prevClose >. prev.spanB then Sell
  else Hold

/-- Models oscillator/IchimokuCloud.go:110-141 `AnalysisSide`. -/
def Ichimoku.sides (convP : Int) (e : Item F) (data : List (Ichimoku.Data F)) : Go (List Side) := do
  let ohlc ← GetOHLC e
  sideLoop e.candles.length convP data fun i prev v => do
    let close ← idx ohlc.close i
    let prevClose ← idx ohlc.close (i - 1)
    pure (Ichimoku.rule close prevClose prev v)

/-- `IchimokuCloud`. -/
abbrev Ichimoku (convP spanBP lagP : Int) : Strat F :=
  { S := Item F, D := Ichimoku.Data F, source := pure, compute := Ichimoku.Calculation convP spanBP lagP,
    sides := Ichimoku.sides convP }

/-- Middle of the highest high of `p` candles and the lowest low of `q`. -/
def midHL (p q : Nat) (x : Nat → Candle F) (i : Nat) : F :=
  (maxF p (hi x) i +. minF q (lo x) i) *. (fl 1 /. fl 2)

/-- The record of one candle. -/
def Ichimoku.out (convP spanBP lagP : Int) (x : Nat → Candle F) (i : Nat) : Ichimoku.Data F :=
  ⟨ti x i, midHL 9 convP.toNat x i, midHL 26 26 x i,
    (midHL 9 convP.toNat x i +. midHL 26 26 x i) *. (fl 1 /. fl 2), midHL spanBP.toNat spanBP.toNat x i,
    shiftF lagP.toNat (fl 0) (cl x) i⟩

theorem Ichimoku.mid_ok {p q : Int} {n : Nat} (x : Nat → Candle F) (hp : okW p n) (hq : okW q n) :
    Ichimoku.mid p q (tab n (hi x)) (tab n (lo x)) = .ok (tab n (midHL p.toNat q.toNat x)) := by
  simp only [Ichimoku.mid, Max_ok _ hp, Min_ok _ hq, Add_tab, DivideBy_tab, Nat.le_refl, if_true, ok_bind]
  rfl

theorem Ichimoku.mid_err {p q : Int} {n : Nat} (x : Nat → Candle F) (h : ¬ (okW p n ∧ okW q n)) :
    ∃ e, Ichimoku.mid p q (tab n (hi x)) (tab n (lo x)) = .error e := by
  by_cases hp : okW p n
  · simp only [Ichimoku.mid, Max_ok _ hp, ok_bind]
    exact err_bind (Min_err _ fun hq => h ⟨hp, hq⟩)
  · exact err_bind (Max_err _ hp)

theorem Ichimoku.appends (convP spanBP lagP : Int) :
    Appends (Ichimoku (F := F) convP spanBP lagP).toIndicator
      (fun n => okW convP n ∧ okW spanBP n ∧ okS lagP n) (Ichimoku.out convP spanBP lagP) := by
  intro it n x hx
  have h9 : okW 9 n := Or.inl (by omega)
  have h26 : okW 26 n := Or.inl (by omega)
  refine ⟨it, rfl, fun ⟨h1, h2, h3⟩ data => ?_, fun h data => ?_⟩
  · show Ichimoku.Calculation convP spanBP lagP it data = _
    simp only [Ichimoku.Calculation, GetOHLC_tab hx, ohlcOf, Ichimoku.mid_ok x h9 h1,
      Ichimoku.mid_ok x h26 h26, Ichimoku.mid_ok x h2 h2, Ta.ShiftRight, ShiftRightAndFillBy_ok _ _ h3, Add_tab,
      DivideBy_tab, Nat.le_refl, if_true, ok_bind, tab_length]
    exact appendLoop_tab _ fun k hk => by simp only [candleTime_tab hx hk, idx_tab hk, ok_bind]; rfl
  · show ∃ p, Ichimoku.Calculation convP spanBP lagP it data = _
    simp only [Ichimoku.Calculation, GetOHLC_tab hx, ohlcOf, ok_bind]
    by_cases h1 : okW convP n
    · simp only [Ichimoku.mid_ok x h9 h1, Ichimoku.mid_ok x h26 h26, Add_tab,
        DivideBy_tab, Nat.le_refl, if_true, ok_bind]
      by_cases h2 : okW spanBP n
      · simp only [Ichimoku.mid_ok x h2 h2, ok_bind]
        exact err_bind (ShiftRightAndFillBy_err _ _ fun h3 => h ⟨h1, h2, h3⟩)
      · exact err_bind (Ichimoku.mid_err x fun hh => h2 hh.1)
    · exact err_bind (Ichimoku.mid_err x fun hh => h1 hh.2)

/-! ## Camarilla -/

/-- Models oscillator/Camarilla.go `CamarillaData`. The slice holds pointers to fresh records that nothing
else refers to; the model stores the records. -/
structure Camarilla.Data (F : Type) where
  time : Int
  pivot : F
  ema : F
  h1 : F
  h2 : F
  h3 : F
  h4 : F
  h5 : F
  h6 : F
  l1 : F
  l2 : F
  l3 : F
  l4 : F
  l5 : F
  l6 : F
  deriving DecidableEq, Repr

/-- Models oscillator/Camarilla.go:83-112 `getCamarilla`, with the `Time`, `EMA` and `Pivot` the caller
stores next (lines 70-73). -/
def getCamarilla (t : Int) (pivot ema high low close : F) : Camarilla.Data F :=
  let h5 := (high /. low) *. close
  let h4 := close +. (high -. low) *. lit (11/10) /. fl 2
  let h6 := h5 +. lit (1168/1000) *. (h5 -. h4)
  { time := t, pivot := pivot, ema := ema
    h1 := close +. (high -. low) *. lit (11/10) /. fl 12
    h2 := close +. (high -. low) *. lit (11/10) /. fl 6
    h3 := close +. (high -. low) *. lit (11/10) /. fl 4
    h4 := h4
    h5 := h5
    h6 := h6
    l1 := close -. (high -. low) *. lit (11/10) /. fl 12
    l2 := close -. (high -. low) *. lit (11/10) /. fl 6
    l3 := close -. (high -. low) *. lit (11/10) /. fl 4
    l4 := close -. (high -. low) *. lit (11/10) /. fl 2
    l5 := close -. (h5 -. close)
    l6 := close -. (h6 -. close) }

/-- Models oscillator/Camarilla.go:55-81 `Calculation`. The zero record only fills slots that are all
overwritten. -/
def Camarilla.Calculation (emaP : Int) (e : Item F) (_ : List (Camarilla.Data F)) :
    Go (List (Camarilla.Data F)) := do
  let ohlc ← GetOHLC e
  let hlc3 ← HLC3 e
  let emas ← Ema emaP ohlc.close
  makeLoop e.candles.length e.candles.length
    (getCamarilla zeroUnix (fl 0) (fl 0) (fl 0) (fl 0) (fl 0)) fun i => do
    let high ← idx ohlc.high i
    let low ← idx ohlc.low i
    let close ← idx ohlc.close i
    let t ← candleTime e i
    let ema ← idx emas i
    let pivot ← idx hlc3 i
    pure (getCamarilla t pivot ema high low close)

/-- `Camarilla` (its `AnalysisSide` takes a second item and is modelled separately). -/
abbrev Camarilla (emaP : Int) : Indicator F :=
  { S := Item F, D := Camarilla.Data F, source := pure, compute := Camarilla.Calculation emaP }

/-- The record of one candle. -/
def Camarilla.out (emaP : Int) (x : Nat → Candle F) (i : Nat) : Camarilla.Data F :=
  getCamarilla (ti x i) ((hi x i +. lo x i +. cl x i) /. fl 3) (emaF emaP (cl x) i) (hi x i) (lo x i) (cl x i)

theorem Camarilla.makes (emaP : Int) :
    Makes (Camarilla (F := F) emaP) (fun _ => True) (Camarilla.out emaP) := by
  intro it n x hx
  refine ⟨it, rfl, fun _ data => ?_, fun h => absurd trivial h⟩
  show Camarilla.Calculation emaP it data = _
  have hl : it.candles.length = n := by rw [hx, tab_length]
  simp only [Camarilla.Calculation, GetOHLC_tab hx, HLC3_tab hx, ohlcOf, Ema_tab, ok_bind, hl]
  exact makeLoop_tab _ fun k hk => by simp only [candleTime_tab hx hk, idx_tab hk, ok_bind]; rfl

/-- The rule of oscillator/Camarilla.go:139-145. -/
def Camarilla.rule (sec : Option (Camarilla.Data F)) (v : Camarilla.Data F) (close op : F) : Side :=
  match sec with
  | none => Hold
  | some s =>
    if close <. v.ema && close >. s.h4 && op <. s.h4 then Buy
    else if close >. v.ema && close <. s.h4 && op >. s.h4 then Sell
    else Hold

/-- Models oscillator/Camarilla.go:115-155 `AnalysisSide` after `ensure`. `day` maps a Unix time to its
calendar day in the zone of the process (year, month and day compared together at line 131); `find?` is the
inner loop with its `break`. -/
def Camarilla.sides (emaP : Int) (day : Int → Int) (other : Item F) (e : Item F)
    (data : List (Camarilla.Data F)) : Go (List Side) := do
  let sides ← mk e.candles.length Buy
  let newData ← (Camarilla emaP).data other
  let ohlc ← GetOHLC e
  let (_, sides) ← goFor 0 data.length ((none : Option (Camarilla.Data F)), sides) fun i (sec, sides) => do
    let v ← idx data i
    let sec := match newData.find? (fun d => day d.time == day v.time) with
      | some d => some d
      | none => sec
    let close ← idx ohlc.close i
    let op ← idx ohlc.open_ i
    let sides ← setAt sides i (Camarilla.rule sec v close op)
    pure (sec, sides)
  pure sides

end Verif.Ind
