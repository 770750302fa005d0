import Verif.Ind.Trend

/-!
# Indicators of `channel/`
-/

set_option linter.unusedSectionVars false

namespace Verif.Ind
open Verif Verif.Klines Verif.Ta GoFloat

variable {F : Type}

/-- The record `struct { Time; Upper; Middle; Lower }` of channel/DonchianChannel.go and
channel/KeltnerChannel.go. -/
structure Band (F : Type) where
  time : Int
  upper : F
  middle : F
  lower : F
  deriving DecidableEq, Repr

section
variable [GoFloat F]

/-- Reads `closes[i]` and `closes[i-1]` and applies a rule; the common part of the three `AnalysisSide`
methods of `channel/`. -/
def closeSides {D : Type} (rule : D → D → F → F → Side) (e : Item F) (data : List D) : Go (List Side) := do
  let ohlc ← GetOHLC e
  sideLoop e.candles.length 1 data fun i prev v => do
    let price ← idx ohlc.close i
    let prevPrice ← idx ohlc.close (i - 1)
    pure (rule prev v prevPrice price)

/-- The rule of channel/DonchianChannel.go:94-100 and channel/KeltnerChannel.go:99-105. -/
def Band.rule (prev v : Band F) (prevPrice price : F) : Side :=
  if price >. v.middle && prevPrice <. prev.middle then Buy
  else if price <. v.middle && prevPrice >. prev.middle then Sell
  else Hold

/-! ## DonchianChannel -/

/-- Models channel/DonchianChannel.go:51-70 `Calculation`. -/
def Donchian.Calculation (period : Int) (e : Item F) (data : List (Band F)) : Go (List (Band F)) := do
  let ohlc ← GetOHLC e
  let upper ← Ta.Max period ohlc.close
  let lower ← Ta.Min period ohlc.close
  let s ← Add upper lower
  let middle ← DivideBy s (fl 2)
  appendLoop middle.length data fun i => do
    let t ← candleTime e i
    let u ← idx upper i
    let m ← idx middle i
    let l ← idx lower i
    pure ⟨t, u, m, l⟩

/-- `DonchianChannel`; `AnalysisSide` is channel/DonchianChannel.go:75-106. -/
abbrev Donchian (period : Int) : Strat F :=
  { S := Item F, D := Band F, source := pure, compute := Donchian.Calculation period,
    sides := closeSides Band.rule }

/-- The record of one candle. -/
def Donchian.out (period : Int) (x : Nat → Candle F) (i : Nat) : Band F :=
  ⟨ti x i, maxF period.toNat (cl x) i,
    (maxF period.toNat (cl x) i +. minF period.toNat (cl x) i) *. (fl 1 /. fl 2), minF period.toNat (cl x) i⟩

theorem Donchian.appends (period : Int) :
    Appends (Donchian (F := F) period).toIndicator (okW period) (Donchian.out period) := by
  intro it n x hx
  refine ⟨it, rfl, fun h data => ?_, fun h data => ?_⟩
  · show Donchian.Calculation period it data = _
    simp only [Donchian.Calculation, GetOHLC_tab hx, ohlcOf, Max_ok _ h, Min_ok _ h, Add_tab, DivideBy_tab,
      Nat.le_refl, if_true, ok_bind, tab_length]
    exact appendLoop_tab _ fun k hk => by simp only [candleTime_tab hx hk, idx_tab hk, ok_bind]; rfl
  · show ∃ p, Donchian.Calculation period it data = _
    simp only [Donchian.Calculation, GetOHLC_tab hx, ohlcOf, ok_bind]
    exact err_bind (Max_err _ h)

/-! ## KeltnerChannel -/

/-- Models channel/KeltnerChannel.go:52-73 `Calculation`. -/
def Keltner.Calculation (period : Int) (e : Item F) (data : List (Band F)) : Go (List (Band F)) := do
  let (_, atr) ← ATR.GetValues period e
  let atr2 ← MultiplyBy atr (fl 2)
  let middle ← EMA.GetValues period e
  let upper ← Add middle atr2
  let lower ← Subtract middle atr2
  appendLoop middle.length data fun i => do
    let t ← candleTime e i
    let u ← idx upper i
    let m ← idx middle i
    let l ← idx lower i
    pure ⟨t, u, m, l⟩

/-- `KeltnerChannel`; `AnalysisSide` is channel/KeltnerChannel.go:80-111. -/
abbrev Keltner (period : Int) : Strat F :=
  { S := Item F, D := Band F, source := pure, compute := Keltner.Calculation period,
    sides := closeSides Band.rule }

/-- The record of one candle. -/
def Keltner.out (period : Int) (x : Nat → Candle F) (i : Nat) : Band F :=
  ⟨ti x i, emaF period (cl x) i +. rmaF period (trI x) i *. fl 2, emaF period (cl x) i,
    subF (emaF period (cl x) i) (rmaF period (trI x) i *. fl 2)⟩

theorem Keltner.appends (period : Int) :
    Appends (Keltner (F := F) period).toIndicator (fun _ => True) (Keltner.out period) := by
  intro it n x hx
  refine ⟨it, rfl, fun _ data => ?_, fun h => absurd trivial h⟩
  show Keltner.Calculation period it data = _
  simp only [Keltner.Calculation, ATR.GetValues_tab hx, EMA.GetValues_tab hx, Add_tab, MultiplyBy_tab,
    Subtract_tab, Nat.le_refl, if_true, ok_bind, tab_length]
  exact appendLoop_tab _ fun k hk => by simp only [candleTime_tab hx hk, idx_tab hk, ok_bind]; rfl

end

section
variable [GoMath F]

/-! ## UlcerIndex -/

/-- Models channel/UlcerIndex.go:48-67 `Calculation`. -/
def Ulcer.Calculation (period : Int) (e : Item F) (data : List (Rec F)) : Go (List (Rec F)) := do
  let ohlc ← GetOHLC e
  let highClosing ← Ta.Max period ohlc.close
  let a ← Subtract ohlc.close highClosing
  let b ← Divide a highClosing
  let dd ← MultiplyBy b (fl 100)
  let sq ← Multiply dd dd
  let avg ← Ta.Ema period sq
  let ui ← Sqrt avg
  appendRecs e ui data

/-- `UlcerIndex`. -/
abbrev Ulcer (period : Int) : Indicator F := recInd (Ulcer.Calculation period)

/-- Drawdown in percent. -/
def ddF (period : Int) (x : Nat → Candle F) (i : Nat) : F :=
  safeDiv (subF (cl x i) (maxF period.toNat (cl x) i)) (maxF period.toNat (cl x) i) *. fl 100

/-- The record of one candle. -/
def Ulcer.out (period : Int) (x : Nat → Candle F) (i : Nat) : Rec F :=
  ⟨ti x i, GoMath.sqrt (emaF period (fun j => ddF period x j *. ddF period x j) i)⟩

theorem Ulcer.appends (period : Int) : Appends (Ulcer (F := F) period) (okW period) (Ulcer.out period) := by
  intro it n x hx
  refine ⟨it, rfl, fun h data => ?_, fun h data => ?_⟩
  · show Ulcer.Calculation period it data = _
    simp only [Ulcer.Calculation, GetOHLC_tab hx, ohlcOf, Max_ok _ h, Subtract_tab, Divide_tab, MultiplyBy_tab,
      Multiply_tab, Ema_tab, Sqrt_tab, Nat.le_refl, if_true, ok_bind, appendRecs_tab hx]
    rfl
  · show ∃ p, Ulcer.Calculation period it data = _
    simp only [Ulcer.Calculation, GetOHLC_tab hx, ohlcOf, ok_bind]
    exact err_bind (Max_err _ h)

/-! ## Boll -/

/-- Models channel/Boll.go `BollData`. -/
structure Boll.Data (F : Type) where
  time : Int
  upper : F
  middle : F
  lower : F
  md : F
  deriving DecidableEq, Repr

/-- Models channel/Boll.go:77-93 `dma`. -/
def Boll.dma (period : Int) (e : Item F) (sma : List F) : Go (List F) := do
  let result ← mk e.candles.length (fl 0)
  let (_, result) ← goFor 0 e.candles.length ((fl 0 : F), result) fun i (sum2, result) => do
    let v ← idx e.candles i
    let sum2 := sum2 +. v.close *. v.close
    if i < period - 1 then
      let result ← setAt result i (fl 0)
      pure (sum2, result)
    else
      let s ← idx sma i
      let result ← setAt result i (GoMath.sqrt (sum2 /. fl period -. s *. s))
      let w ← idx e.candles (i - (period - 1))
      pure (sum2 -. w.close *. w.close, result)
  pure result

/-- Models channel/Boll.go:96-116 `Calculation`. The code does not read the field `PeriodK`. -/
def Boll.Calculation (period _periodK : Int) (e : Item F) (_ : List (Boll.Data F)) : Go (List (Boll.Data F)) := do
  let middle ← SMA.GetValues period e
  let md ← Boll.dma period e middle
  let upper ← Add middle md
  let lower ← Subtract middle md
  makeLoop e.candles.length middle.length ⟨zeroUnix, fl 0, fl 0, fl 0, fl 0⟩ fun i => do
    let t ← candleTime e i
    let m ← idx middle i
    let u ← idx upper i
    let l ← idx lower i
    let d ← idx md i
    pure ⟨t, u, m, l, d⟩

/-- The rule of channel/Boll.go:140-146, with the comparison of `prevPrice` with itself. -/
def Boll.rule (prev v : Boll.Data F) (prevPrice price : F) : Side :=
  if price >. v.upper && prevPrice <. prev.upper then Buy
  else if price <. v.lower && prevPrice >. prevPrice then Sell
  else Hold

/-- `Boll`; `AnalysisSide` is channel/Boll.go:121-152. -/
abbrev Boll (period periodK : Int) : Strat F :=
  { S := Item F, D := Boll.Data F, source := pure, compute := Boll.Calculation period periodK,
    sides := closeSides Boll.rule }

/-- The running sum of squares before candle `k`. -/
def bollS (p : Nat) (c : Nat → F) : Nat → F
  | 0 => fl 0
  | k + 1 => if k + 1 < p then bollS p c k +. c k *. c k
    else bollS p c k +. c k *. c k -. c (k + 1 - p) *. c (k + 1 - p)

/-- The deviation at one candle. -/
def dmaF (p : Nat) (c : Nat → F) (i : Nat) : F :=
  if i + 1 < p then fl 0
  else GoMath.sqrt ((bollS p c i +. c i *. c i) /. fl p -. smaF p c i *. smaF p c i)

/-- The record of one candle. -/
def Boll.out (period : Int) (x : Nat → Candle F) (i : Nat) : Boll.Data F :=
  ⟨ti x i, smaF period.toNat (cl x) i +. dmaF period.toNat (cl x) i, smaF period.toNat (cl x) i,
    subF (smaF period.toNat (cl x) i) (dmaF period.toNat (cl x) i), dmaF period.toNat (cl x) i⟩

theorem Boll.dma_ok {p : Nat} (hp : 0 < p) {e : Item F} {n : Nat} {x : Nat → Candle F}
    (hx : e.candles = tab n x) :
    Boll.dma p e (tab n (smaF p (cl x))) = .ok (tab n (dmaF p (cl x))) := by
  simp only [Boll.dma, hx, tab_length, mk_nat, ok_bind]
  rw [goFor_fill (s := (fl 0 : F)) (dmaF p (cl x)) (bollS p (cl x)) rfl]
  · rfl
  · intro k hk
    simp only [idx_tab hk, ok_bind]
    by_cases h : k + 1 < p
    · rw [if_pos (by omega), setAt_filled hk (by rw [dmaF, if_pos h])]
      simp only [ok_bind, bollS, if_pos h]
      rfl
    · have e1 : (k : Int) - ((p : Int) - 1) = ((k + 1 - p : Nat) : Int) := by omega
      rw [if_neg (by omega), setAt_filled hk (by rw [dmaF, if_neg h]; rfl), ok_bind, e1,
        idx_tab (by omega), ok_bind]
      simp only [bollS, if_neg h]
      rfl

theorem Boll.dma_zero {e : Item F} {n : Nat} {x : Nat → Candle F} (hn : 0 < n) (s : Nat → F)
    (hx : e.candles = tab n x) : ∃ q, Boll.dma 0 e (tab n s) = .error q := by
  refine ⟨.index, ?_⟩
  obtain ⟨m, rfl⟩ : ∃ m, n = m + 1 := ⟨n - 1, by omega⟩
  simp only [Boll.dma, hx, tab_length, mk_nat, ok_bind]
  have hset : ∀ (k : Nat) (v : F) (r : List F), r.length = m + 1 → k < m + 1 → setAt r k v = .ok (r.set k v) := by
    intro k v r hr hk
    rw [setAt_nat (by omega)]
  unfold goFor
  rw [show (((m + 1 : Nat) : Int) - 0).toNat = m + 1 by omega]
  rw [goForFrom_inv_error (p := .index) m (by omega) (fun _ st => st.2.length = m + 1) (by simp)]
  · rfl
  · intro k st hk hl
    have e1 : (k : Int) - (0 - 1) = ((k + 1 : Nat) : Int) := by omega
    simp only [Int.zero_add, idx_tab (show k < m + 1 by omega), ok_bind, e1,
      if_neg (show ¬ (k : Int) < 0 - 1 by omega), hset k _ _ hl (by omega),
      idx_tab (show k + 1 < m + 1 by omega)]
    exact ⟨_, rfl, by simpa using hl⟩
  · intro st hl
    have e1 : (m : Int) - (0 - 1) = ((m + 1 : Nat) : Int) := by omega
    simp only [Int.zero_add, idx_tab (show m < m + 1 by omega), ok_bind, e1,
      if_neg (show ¬ (m : Int) < 0 - 1 by omega), hset m _ _ hl (by omega), idx_tab_ge (le_refl _)]
    rfl

theorem Boll.makes (period periodK : Int) :
    Makes (Boll (F := F) period periodK).toIndicator (fun n => 0 < period ∨ n = 0) (Boll.out period) := by
  intro it n x hx
  have hl : it.candles.length = n := by rw [hx, tab_length]
  refine ⟨it, rfl, fun h data => ?_, fun h data => ?_⟩
  · show Boll.Calculation period periodK it data = _
    rcases h with h | rfl
    · obtain ⟨p, rfl⟩ : ∃ p : Nat, period = p := ⟨period.toNat, by omega⟩
      simp only [Boll.Calculation, SMA.GetValues_ok hx (Or.inl h.le), Int.toNat_natCast, ok_bind,
        Boll.dma_ok (show 0 < p by omega) hx, Add_tab, Subtract_tab, Nat.le_refl, if_true, tab_length, hl]
      exact makeLoop_tab _ fun k hk => by simp only [candleTime_tab hx hk, idx_tab hk, ok_bind]; rfl
    · have hd : Boll.dma period it (tab 0 (smaF period.toNat (cl x))) = .ok (tab 0 (fun _ => fl 0)) := by
        simp only [Boll.dma, hl]; rfl
      simp only [Boll.Calculation, SMA.GetValues_ok hx (Or.inr rfl), ok_bind, hd, hl]
      rfl
  · show ∃ p, Boll.Calculation period periodK it data = _
    simp only [not_or] at h
    by_cases h0 : okS period n
    · obtain rfl : period = 0 := by rcases h0 with h0 | h0 <;> omega
      simp only [Boll.Calculation, SMA.GetValues_ok hx h0, ok_bind]
      exact err_bind (Boll.dma_zero (by omega) _ hx)
    · exact err_bind (SMA.GetValues_err hx h0)

end

end Verif.Ind
