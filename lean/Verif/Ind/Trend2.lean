import Verif.Ind.Trend

/-!
# Indicators of `trend/`, second part
-/

set_option linter.unusedSectionVars false

namespace Verif.Ind
open Verif Verif.Klines Verif.Ta GoFloat

variable {F : Type} [GoFloat F]

/-! ## SuperTrend -/

/-- Models trend/SuperTrend.go `SuperTrendData`; trend/PivotPointSuperTrend.go has the same record. -/
structure ST.Data (F : Type) where
  time : Int
  up : F
  upBegin : F
  down : F
  downBegin : F
  deriving DecidableEq, Repr

/-- The zero record. -/
def ST.zero : ST.Data F := ⟨zeroUnix, fl 0, fl 0, fl 0, fl 0⟩

/-- What the loop of `SuperTrend.Calculation` stores for one candle: `up`, `dn`, `trend`, `upb`, `dnb`. -/
structure ST.St (F : Type) where
  up : F
  dn : F
  trend : F
  upb : F
  dnb : F
  deriving DecidableEq, Repr

/-- The entries of candle 0: zeros, and trend 1. -/
def ST.init : ST.St F := ⟨fl 0, fl 0, fl 1, fl 0, fl 0⟩

/-- One iteration (`i >= 1`) of the loop of trend/SuperTrend.go:102-135: the entries at `i` from the
entries at `i-1`, `src[i]`, `AtrMultiplier * atr[i]`, `closes[i-1]` and `closes[i]`. -/
def ST.step (s : ST.St F) (src band pc c : F) : ST.St F :=
  let up := src -. band
  let up1 := Nz s.up up
  let up := if pc >. up1 then max up up1 else up
  let dn := src +. band
  let dn1 := Nz s.dn dn
  let dn := if pc <. dn1 then min dn dn1 else dn
  let trend := Nz s.trend (fl 1)
  let trend := if trend ==. fl (-1) && c >. dn1 then fl 1
    else if trend ==. fl 1 && c <. up1 then fl (-1) else trend
  if trend ==. fl 1 && s.trend ==. fl (-1) then ⟨up, dn, trend, up, fl 0⟩
  else if trend ==. fl (-1) && s.trend ==. fl 1 then ⟨up, dn, trend, fl 0, dn⟩
  else ⟨up, dn, trend, fl 0, fl 0⟩

/-- Models trend/SuperTrend.go:66-149 `Calculation`. The eight slices are written only at `i` and read only
at `i` and `i-1`; the model keeps one slice of states. -/
def ST.Calculation (period mult : Int) (changeAtr : Bool) (s : OHLC F × List F) (_ : List (ST.Data F)) :
    Go (List (ST.Data F)) := do
  let o := s.1
  let src := s.2
  let atr ← (if changeAtr then Ta.Atr o.high o.low o.close period
    else do
      let natr ← Ta.Natr o.high o.low o.close period
      Ta.Sma period natr)
  let st ← mk o.close.length (⟨fl 0, fl 0, fl 0, fl 0, fl 0⟩ : ST.St F)
  let st ← goFor 0 src.length st fun i st => do
    if i < 1 then setAt st i ST.init
    else
      let v ← idx src i
      let a ← idx atr i
      let prev ← idx st (i - 1)
      let pc ← idx o.close (i - 1)
      let c ← idx o.close i
      setAt st i (ST.step prev v (fl mult *. a) pc c)
  makeLoop o.close.length o.close.length ST.zero fun i => do
    let t ← idx o.timeUnix i
    let v ← idx st i
    pure ⟨t, v.up, v.upb, v.dn, v.dnb⟩

/-- Models trend/SuperTrend.go:172-195 and trend/PivotPointSuperTrend.go:153-177 `AnalysisSide`; `x != 0` is
`!(x == 0)`. -/
def ST.rule (v : ST.Data F) : Side :=
  if !(v.upBegin ==. fl 0) then Buy else if !(v.downBegin ==. fl 0) then Sell else Hold

/-- `AnalysisSide` of the two supertrends: the slice has `len(e.data)` entries. -/
def ST.sides {S : Type} (_ : S) (data : List (ST.Data F)) : Go (List Side) :=
  sideLoop data.length 1 data fun _ _ v => pure (ST.rule v)

/-- `SuperTrend`. -/
abbrev ST (period mult : Int) (changeAtr : Bool) : Strat F :=
  { S := OHLC F × List F, D := ST.Data F,
    source := fun it => do
      let o ← GetOHLC it
      let h ← HL2 it
      pure (o, h),
    compute := ST.Calculation period mult changeAtr, sides := ST.sides }

/-- The range column used by `SuperTrend`. -/
def stAtr (period : Int) (changeAtr : Bool) (x : Nat → Candle F) : Nat → F :=
  if changeAtr then atrI period (hi x) (lo x) (cl x)
  else smaF period.toNat (natrI period (hi x) (lo x) (cl x))

/-- The state at one candle. -/
def stF (period mult : Int) (changeAtr : Bool) (x : Nat → Candle F) : Nat → ST.St F
  | 0 => ST.init
  | k + 1 => ST.step (stF period mult changeAtr x k) ((hi x (k + 1) +. lo x (k + 1)) /. fl 2)
      (fl mult *. stAtr period changeAtr x (k + 1)) (cl x k) (cl x (k + 1))

/-- The record of one candle. -/
def ST.out (period mult : Int) (changeAtr : Bool) (x : Nat → Candle F) (i : Nat) : ST.Data F :=
  ⟨ti x i, (stF period mult changeAtr x i).up, (stF period mult changeAtr x i).upb,
    (stF period mult changeAtr x i).dn, (stF period mult changeAtr x i).dnb⟩

theorem ST.makes (period mult : Int) (changeAtr : Bool) :
    Makes (ST (F := F) period mult changeAtr).toIndicator
      (fun n => okAtr period n ∧ (changeAtr = false → okS period n)) (ST.out period mult changeAtr) := by
  intro it n x hx
  refine ⟨_, by simp only [GetOHLC_tab hx, HL2_tab hx, ok_bind]; rfl, fun ⟨h1, h2⟩ data => ?_, fun h data => ?_⟩
  · show ST.Calculation period mult changeAtr _ data = _
    have ha : (if changeAtr = true then Ta.Atr (tab n (hi x)) (tab n (lo x)) (tab n (cl x)) period
        else do
          let natr ← Ta.Natr (tab n (hi x)) (tab n (lo x)) (tab n (cl x)) period
          Ta.Sma period natr) = .ok (tab n (stAtr period changeAtr x)) := by
      cases changeAtr
      · simp only [Bool.false_eq_true, if_false, Natr_ok _ _ _ h1, ok_bind, Sma_ok _ (h2 rfl)]
        rfl
      · simp only [if_true, Atr_ok _ _ _ h1]
        rfl
    simp only [ST.Calculation, ohlcOf, ha, ok_bind, tab_length, mk_nat]
    rw [goFor_fill₀ (stF period mult changeAtr x)]
    · rw [ok_bind]
      exact makeLoop_tab _ fun k hk => by simp only [idx_tab hk, ok_bind]; rfl
    · intro k hk
      cases k with
      | zero => rw [if_pos (by omega)]; exact setAt_filled (f := stF period mult changeAtr x) hk rfl
      | succ k =>
        have e : ((k + 1 : Nat) : Int) - 1 = (k : Int) := by omega
        rw [if_neg (by omega), e]
        simp only [idx_tab hk, idx_tab (show k < n by omega), idx_filled (show k < k + 1 by omega)
          (show k < n by omega), ok_bind]
        exact setAt_filled (f := stF period mult changeAtr x) hk rfl
  · show ∃ p, ST.Calculation period mult changeAtr _ data = _
    simp only [ST.Calculation, ohlcOf]
    refine err_bind ?_
    cases changeAtr
    · simp only [Bool.false_eq_true, if_false]
      by_cases h1 : okAtr period n
      · simp only [Natr_ok _ _ _ h1, ok_bind]
        exact Sma_err _ fun h2 => h ⟨h1, fun _ => h2⟩
      · exact err_bind (Natr_err _ _ _ h1)
    · simp only [if_true]
      exact Atr_err _ _ _ fun h1 => h ⟨h1, by simp⟩

/-! ## PivotPointSuperTrend -/

/-- What the loop of trend/PivotPointSuperTrend.go stores for one candle: `tCenter`, `tUP`, `tDown`,
`trend`. -/
structure PPST.St (F : Type) where
  center : F
  up : F
  dn : F
  trend : Int
  deriving DecidableEq, Repr

/-- The entries before the loop. -/
def PPST.init : PPST.St F := ⟨fl 0, fl 0, fl 0, 0⟩

/-- One iteration of trend/PivotPointSuperTrend.go:95-117: the entries at `i` from those at `i-1`,
`ph[i]`, `pl[i]`, `AtrFactor * atr[i]`, `closes[i-1]`, `closes[i]`. -/
def PPST.step (s : PPST.St F) (ph pl band pc c : F) : PPST.St F :=
  let lastpp := if ph >. fl 0 then ph else if pl >. fl 0 then pl else fl 0
  let center := if !(lastpp ==. fl 0) then
      (if s.center ==. fl 0 then lastpp else (s.center *. fl 2 +. lastpp) /. fl 3)
    else s.center
  let up := center -. band
  let dn := center +. band
  ⟨center, if pc >. s.up then max up s.up else up, if pc <. s.dn then min dn s.dn else dn,
    if c >. s.dn then 1 else if c <. s.up then -1 else s.trend⟩

/-- The record written in the same iteration (lines 118-127). -/
def PPST.emit (t : Int) (prev s : PPST.St F) : ST.Data F :=
  let sl := if s.trend = 1 then s.up else s.dn
  ⟨t, if s.trend = 1 ∧ prev.trend = 1 then sl else fl 0, if s.trend = 1 ∧ prev.trend = -1 then sl else fl 0,
    if s.trend = -1 ∧ prev.trend = -1 then sl else fl 0, if s.trend = -1 ∧ prev.trend = 1 then sl else fl 0⟩

/-- Models trend/PivotPointSuperTrend.go:65-130 `Calculation`. The four working slices are kept as one
slice of states. -/
def PPST.Calculation (period atrPeriod : Int) (factor : F) (o : OHLC F) (_ : List (ST.Data F)) :
    Go (List (ST.Data F)) := do
  let ph ← Ta.PivotHigh o.high period period
  let pl ← Ta.PivotLow o.low period period
  let atr ← Ta.Atr o.high o.low o.close atrPeriod
  let st ← mk o.close.length (PPST.init : PPST.St F)
  let data ← mk o.close.length ST.zero
  let (_, data) ← goFor 1 o.close.length (st, data) fun i (st, data) => do
    let c ← idx o.close i
    let h ← idx ph i
    let l ← idx pl i
    let prev ← idx st (i - 1)
    let pc ← idx o.close (i - 1)
    let a ← idx atr i
    let s := PPST.step prev h l (factor *. a) pc c
    let st ← setAt st i s
    let t ← idx o.timeUnix i
    let data ← setAt data i (PPST.emit t prev s)
    pure (st, data)
  pure data

/-- `PivotPointSuperTrend`. -/
abbrev PPST (period atrPeriod : Int) (factor : F) : Strat F :=
  { S := OHLC F, D := ST.Data F, source := GetOHLC, compute := PPST.Calculation period atrPeriod factor,
    sides := ST.sides }

/-- The state at one candle. -/
def ppstF (period atrPeriod : Int) (factor : F) (x : Nat → Candle F) : Nat → PPST.St F
  | 0 => PPST.init
  | k + 1 => PPST.step (ppstF period atrPeriod factor x k)
      (pivotHighF period.toNat period.toNat (hi x) (k + 1)) (pivotLowF period.toNat period.toNat (lo x) (k + 1))
      (factor *. atrI atrPeriod (hi x) (lo x) (cl x) (k + 1)) (cl x k) (cl x (k + 1))

/-- The record of one candle. -/
def PPST.out (period atrPeriod : Int) (factor : F) (x : Nat → Candle F) : Nat → ST.Data F
  | 0 => ST.zero
  | k + 1 => PPST.emit (ti x (k + 1)) (ppstF period atrPeriod factor x k) (ppstF period atrPeriod factor x (k + 1))

/-- A slice of zeros is a filled slice when the entries below the bound are zero. -/
theorem replicate_filled {α : Type} (n k : Nat) (f : Nat → α) (z : α) (h : ∀ j, j < k → f j = z) :
    List.replicate n z = filled n k f z := by
  rw [replicate_eq_tab]
  exact tab_ext fun i _ => by by_cases hi : i < k <;> simp [hi, h]

theorem replicate_tab {α : Type} {n : Nat} (f : Nat → α) (z : α) (h : ∀ j, j < n → f j = z) :
    List.replicate n z = tab n f := by
  rw [replicate_eq_tab]
  exact tab_ext fun i hi => (h i hi).symm

theorem PPST.makes (period atrPeriod : Int) (factor : F) :
    Makes (PPST (F := F) period atrPeriod factor).toIndicator (fun n => 0 ≤ period ∧ okAtr atrPeriod n)
      (PPST.out period atrPeriod factor) := by
  intro it n x hx
  refine ⟨_, GetOHLC_tab hx, fun ⟨h1, h2⟩ data => ?_, fun h data => ?_⟩
  · show PPST.Calculation period atrPeriod factor _ data = _
    simp only [PPST.Calculation, ohlcOf, PivotHigh_ok _ _ h1, PivotLow_ok _ _ h1, Atr_ok _ _ _ h2, ok_bind,
      tab_length, mk_nat]
    rcases Nat.eq_zero_or_pos n with rfl | hn
    · rw [goFor_empty (by omega)]; rfl
    · rw [show (1 : Int) = ((1 : Nat) : Int) from rfl, goFor_acc (lo := 1) (by omega) (fun k =>
        (filled n k (ppstF period atrPeriod factor x) PPST.init, filled n k (PPST.out period atrPeriod factor x) ST.zero))]
      · simp only [ok_bind, filled_full]; rfl
      · refine Prod.ext (replicate_filled n 1 _ _ fun j hj => ?_).symm (replicate_filled n 1 _ _ fun j hj => ?_).symm
        · obtain rfl : j = 0 := by omega
          rfl
        · obtain rfl : j = 0 := by omega
          rfl
      · intro k hk hk'
        obtain ⟨m, rfl⟩ : ∃ m, k = m + 1 := ⟨k - 1, by omega⟩
        have e : ((m + 1 : Nat) : Int) - ((1 : Nat) : Int) = (m : Int) := by omega
        simp only [e, idx_tab hk', idx_tab (show m < n by omega), idx_filled (show m < m + 1 by omega)
          (show m < n by omega), ok_bind]
        rw [setAt_filled hk', ok_bind, setAt_filled hk']
        all_goals rfl
  · show ∃ p, PPST.Calculation period atrPeriod factor _ data = _
    simp only [PPST.Calculation, ohlcOf]
    by_cases h1 : 0 ≤ period
    · simp only [PivotHigh_ok _ _ h1, PivotLow_ok _ _ h1, ok_bind]
      exact err_bind (Atr_err _ _ _ fun h2 => h ⟨h1, h2⟩)
    · exact err_bind (PivotHigh_err _ _ (by omega))

/-! ## UTBot -/

/-- Models trend/UTBot.go `UTBotData`. -/
structure UT.Data (F : Type) where
  time : Int
  close : F
  value : F
  deriving DecidableEq, Repr

/-- The stop at `i` from the stop at `i-1`, the two closes and `nLoss` (trend/UTBot.go:82-90). -/
def UT.step (stop pc c nLoss : F) : F :=
  if c >. stop && pc >. stop then max stop (c -. nLoss)
  else if c <. stop && pc <. stop then min stop (c +. nLoss)
  else if c >. stop then c -. nLoss
  else c +. nLoss

/-- The zero record. -/
def UT.zero : UT.Data F := ⟨zeroUnix, fl 0, fl 0⟩

/-- Models trend/UTBot.go:57-101 `Calculation`. -/
def UT.Calculation (period atrPeriod : Int) (o : OHLC F) (_ : List (UT.Data F)) : Go (List (UT.Data F)) := do
  let atr ← Ta.Atr o.high o.low o.close atrPeriod
  let stops ← mk o.close.length (fl 0 : F)
  let data ← mk o.close.length UT.zero
  let (_, data) ← goFor 0 o.close.length (stops, data) fun i (stops, data) => do
    if i = 0 then pure (stops, data)
    else
      let close ← idx o.close i
      let a ← idx atr i
      let stop ← idx stops (i - 1)
      let pc ← idx o.close (i - 1)
      let s := UT.step stop pc close (fl period *. a)
      let stops ← setAt stops i s
      let t ← idx o.timeUnix i
      let data ← setAt data i ⟨t, close, s⟩
      pure (stops, data)
  pure data

/-- The rule of trend/UTBot.go:115-130. -/
def UT.rule (prev v : UT.Data F) : Side :=
  let above := v.close >. v.value && prev.close <. prev.value
  let below := v.close <. v.value && prev.close >. prev.value
  if v.close >. v.value && above then Buy else if v.close <. v.value && below then Sell else Hold

/-- Models trend/UTBot.go:104-136 `AnalysisSide`. -/
def UT.sides (_ : OHLC F) (data : List (UT.Data F)) : Go (List Side) :=
  sideLoop data.length 1 data fun _ prev v => pure (UT.rule prev v)

/-- `UTBot`. -/
abbrev UT (period atrPeriod : Int) : Strat F :=
  { S := OHLC F, D := UT.Data F, source := GetOHLC, compute := UT.Calculation period atrPeriod,
    sides := UT.sides }

/-- The stop at one candle. -/
def utF (period atrPeriod : Int) (x : Nat → Candle F) : Nat → F
  | 0 => fl 0
  | k + 1 => UT.step (utF period atrPeriod x k) (cl x k) (cl x (k + 1))
      (fl period *. atrI atrPeriod (hi x) (lo x) (cl x) (k + 1))

/-- The record of one candle. -/
def UT.out (period atrPeriod : Int) (x : Nat → Candle F) : Nat → UT.Data F
  | 0 => UT.zero
  | k + 1 => ⟨ti x (k + 1), cl x (k + 1), utF period atrPeriod x (k + 1)⟩

theorem UT.makes (period atrPeriod : Int) :
    Makes (UT (F := F) period atrPeriod).toIndicator (okAtr atrPeriod) (UT.out period atrPeriod) := by
  intro it n x hx
  refine ⟨_, GetOHLC_tab hx, fun h data => ?_, fun h data => ?_⟩
  · show UT.Calculation period atrPeriod _ data = _
    simp only [UT.Calculation, ohlcOf, Atr_ok _ _ _ h, ok_bind, tab_length, mk_nat]
    rw [goFor_acc₀ (fun k => (filled n k (utF period atrPeriod x) (fl 0), filled n k (UT.out period atrPeriod x) UT.zero))]
    · simp only [ok_bind, filled_full]; rfl
    · rw [filled_zero, filled_zero]
    · intro k hk
      cases k with
      | zero =>
        rw [if_pos (by omega)]
        refine congrArg Except.ok (Prod.ext ?_ ?_)
        · exact (filled_zero ..).symm.trans (replicate_filled n 1 _ _ fun j hj => by
            obtain rfl : j = 0 := by omega
            rfl)
        · exact (filled_zero ..).symm.trans (replicate_filled n 1 _ _ fun j hj => by
            obtain rfl : j = 0 := by omega
            rfl)
      | succ m =>
        have e : ((m + 1 : Nat) : Int) - 1 = (m : Int) := by omega
        rw [if_neg (by omega)]
        simp only [e, idx_tab hk, idx_tab (show m < n by omega), idx_filled (show m < m + 1 by omega)
          (show m < n by omega), ok_bind]
        rw [setAt_filled hk, ok_bind, setAt_filled hk]
        all_goals rfl
  · exact err_bind (Atr_err _ _ _ h)

/-! ## Vortex -/

/-- Models trend/Vortex.go `VortexData`. -/
structure Vortex.Data (F : Type) where
  time : Int
  plus : F
  minus : F
  deriving DecidableEq, Repr

/-- One ring buffer with its running sum: `sum -= ring[j]; ring[j] = v; sum += ring[j]`. -/
def Vortex.push (r : List F × F) (j : Int) (v : F) : Go (List F × F) := do
  let old ← idx r.1 j
  let s := r.2 -. old
  let ring ← setAt r.1 j v
  let new ← idx ring j
  pure (ring, s +. new)

/-- Models trend/Vortex.go:41-90 `Calculation`. -/
def Vortex.Calculation (period : Int) (e : Item F) (data : List (Vortex.Data F)) :
    Go (List (Vortex.Data F)) := do
  let o ← GetOHLC e
  let plusVi ← mk o.high.length (fl 0 : F)
  let minusVi ← mk o.high.length (fl 0 : F)
  let plusVm ← mk period (fl 0 : F)
  let minusVm ← mk period (fl 0 : F)
  let tr ← mk period (fl 0 : F)
  let (_, plusVi, minusVi) ← goFor 1 o.high.length
    (((plusVm, (fl 0 : F)), (minusVm, (fl 0 : F)), (tr, (fl 0 : F))), plusVi, minusVi)
    fun i ((p, m, t), plusVi, minusVi) => do
      let j ← goMod i period
      let h ← idx o.high i
      let pl ← idx o.low (i - 1)
      let p ← Vortex.push p j (abs (h -. pl))
      let l ← idx o.low i
      let ph ← idx o.high (i - 1)
      let m ← Vortex.push m j (abs (l -. ph))
      let pc ← idx o.close (i - 1)
      let t ← Vortex.push t j (max (h -. l) (max (abs (h -. pc)) (abs (l -. pc))))
      let plusVi ← setAt plusVi i (p.2 /. t.2)
      let minusVi ← setAt minusVi i (m.2 /. t.2)
      pure ((p, m, t), plusVi, minusVi)
  appendLoop plusVi.length data fun i => do
    let t ← candleTime e i
    let m ← idx minusVi i
    let p ← idx plusVi i
    pure ⟨t, p, m⟩

/-- `Vortex`. -/
abbrev Vortex (period : Int) : Indicator F :=
  { S := Item F, D := Vortex.Data F, source := pure, compute := Vortex.Calculation period }

/-- Running sum over the last `p` entries `v 1 ... v k`, in the order of the code. -/
def ringSum (p : Nat) (v : Nat → F) : Nat → F
  | 0 => fl 0
  | k + 1 => ringSum p v k -. (if p < k + 1 then v (k + 1 - p) else fl 0) +. v (k + 1)

/-- Positive movement. -/
def vmPlus (x : Nat → Candle F) (i : Nat) : F := abs (hi x i -. lo x (i - 1))
/-- Negative movement. -/
def vmMinus (x : Nat → Candle F) (i : Nat) : F := abs (lo x i -. hi x (i - 1))
/-- True range. -/
def vmTR (x : Nat → Candle F) (i : Nat) : F :=
  max (hi x i -. lo x i) (max (abs (hi x i -. cl x (i - 1))) (abs (lo x i -. cl x (i - 1))))
/-- `PlusVi` at one candle. -/
def viPlus (p : Nat) (x : Nat → Candle F) (i : Nat) : F :=
  if i = 0 then fl 0 else ringSum p (vmPlus x) i /. ringSum p (vmTR x) i
/-- `MinusVi` at one candle. -/
def viMinus (p : Nat) (x : Nat → Candle F) (i : Nat) : F :=
  if i = 0 then fl 0 else ringSum p (vmMinus x) i /. ringSum p (vmTR x) i

/-- The record of one candle. -/
def Vortex.out (period : Int) (x : Nat → Candle F) (i : Nat) : Vortex.Data F :=
  ⟨ti x i, viPlus period.toNat x i, viMinus period.toNat x i⟩

/-- State of a ring before iteration `k`: what is stored where the next `p` iterations look is the value of
`p` iterations earlier. -/
def RingAt (p : Nat) (v : Nat → F) (k : Nat) (r : List F × F) : Prop :=
  r.1.length = p ∧ r.2 = ringSum p v (k - 1) ∧
    ∀ i, k ≤ i → i < k + p → r.1[i % p]? = some (if p < i then v (i - p) else fl 0)

theorem RingAt.init {p : Nat} (v : Nat → F) : RingAt p v 1 (List.replicate p (fl 0), fl 0) := by
  refine ⟨by simp, rfl, fun i h1 h2 => ?_⟩
  have : i % p < p := Nat.mod_lt _ (by omega)
  simp only [List.getElem?_replicate, this, if_true]
  rw [if_neg (by omega)]

theorem Vortex.push_ok {p : Nat} (hp : 0 < p) {v : Nat → F} {k : Nat} (hk : 1 ≤ k) {r : List F × F}
    (h : RingAt p v k r) :
    ∃ r', Vortex.push r ((k % p : Nat) : Int) (v k) = .ok r' ∧ RingAt p v (k + 1) r' ∧ r'.2 = ringSum p v k := by
  obtain ⟨hl, hs, hr⟩ := h
  have hlt : k % p < p := Nat.mod_lt _ hp
  have h1 : idx r.1 ((k % p : Nat) : Int) = .ok (if p < k then v (k - p) else fl 0) :=
    idx_of_getElem? (hr k le_rfl (by omega))
  have h2 : setAt r.1 ((k % p : Nat) : Int) (v k) = .ok (r.1.set (k % p) (v k)) := setAt_nat (by omega)
  have h3 : idx (r.1.set (k % p) (v k)) ((k % p : Nat) : Int) = .ok (v k) :=
    idx_of_getElem? (by simp [hl, hlt])
  have hsum : r.2 -. (if p < k then v (k - p) else fl 0) +. v k = ringSum p v k := by
    obtain ⟨m, rfl⟩ : ∃ m, k = m + 1 := ⟨k - 1, by omega⟩
    rw [hs]; rfl
  refine ⟨(r.1.set (k % p) (v k), r.2 -. (if p < k then v (k - p) else fl 0) +. v k), ?_, ⟨?_, hsum, ?_⟩, hsum⟩
  · simp only [Vortex.push, h1, h2, h3, ok_bind]; rfl
  · simpa using hl
  · intro i hi1 hi2
    by_cases hi : i = k + p
    · subst hi
      simp only [Nat.add_mod_right, List.getElem?_set_self (show k % p < r.1.length by omega),
        Nat.add_sub_cancel]
      rw [if_pos (by omega)]
    · have hne : k % p ≠ i % p := by
        intro he
        have hm : (i - k) % p = 0 := Nat.sub_mod_eq_zero_of_mod_eq he.symm
        rw [Nat.mod_eq_of_lt (by omega)] at hm
        omega
      rw [List.getElem?_set_ne hne]
      exact hr i (by omega) (by omega)

theorem Vortex.appends (period : Int) :
    Appends (Vortex (F := F) period) (fun n => 0 < period ∨ (period = 0 ∧ n < 2)) (Vortex.out period) := by
  intro it n x hx
  refine ⟨it, rfl, fun h data => ?_, fun h data => ?_⟩
  · show Vortex.Calculation period it data = _
    obtain ⟨p, rfl⟩ : ∃ p : Nat, period = p := ⟨period.toNat, by omega⟩
    have fin : (appendLoop (n : Int) data fun i => do
        let t ← candleTime it i
        let m ← idx (tab n (viMinus p x)) i
        let p ← idx (tab n (viPlus p x)) i
        pure (⟨t, p, m⟩ : Vortex.Data F)) = .ok (data ++ tab n (Vortex.out (p : Int) x)) :=
      appendLoop_tab _ fun k hk => by simp only [candleTime_tab hx hk, idx_tab hk, ok_bind]; rfl
    simp only [Vortex.Calculation, GetOHLC_tab hx, ohlcOf, ok_bind, tab_length, mk_nat]
    by_cases hn : n < 2
    · rw [goFor_empty (by omega), ok_bind]
      obtain rfl | rfl : n = 0 ∨ n = 1 := by omega
      · exact fin
      · exact fin
    · have hp : 0 < p := by omega
      obtain ⟨s, hs, _, _, _, e1, e2⟩ := goFor_inv' (lo := 1) (hi := n) (by omega)
        (s := (((List.replicate p (fl 0 : F), (fl 0 : F)), (List.replicate p (fl 0 : F), (fl 0 : F)),
          (List.replicate p (fl 0 : F), (fl 0 : F))), List.replicate n (fl 0 : F), List.replicate n (fl 0 : F)))
        (body := fun i ((pr, m, t), plusVi, minusVi) => do
          let j ← goMod i p
          let h ← idx (tab n (hi x)) i
          let pl ← idx (tab n (lo x)) (i - 1)
          let pr ← Vortex.push pr j (abs (h -. pl))
          let l ← idx (tab n (lo x)) i
          let ph ← idx (tab n (hi x)) (i - 1)
          let m ← Vortex.push m j (abs (l -. ph))
          let pc ← idx (tab n (cl x)) (i - 1)
          let t ← Vortex.push t j (max (h -. l) (max (abs (h -. pc)) (abs (l -. pc))))
          let plusVi ← setAt plusVi i (pr.2 /. t.2)
          let minusVi ← setAt minusVi i (m.2 /. t.2)
          pure ((pr, m, t), plusVi, minusVi))
        (fun k s => RingAt p (vmPlus x) k s.1.1 ∧ RingAt p (vmMinus x) k s.1.2.1 ∧ RingAt p (vmTR x) k s.1.2.2 ∧
          s.2.1 = filled n k (viPlus p x) (fl 0) ∧ s.2.2 = filled n k (viMinus p x) (fl 0))
        ⟨RingAt.init _, RingAt.init _, RingAt.init _,
          replicate_filled n 1 _ _ fun j hj => by
            obtain rfl : j = 0 := by omega
            rfl,
          replicate_filled n 1 _ _ fun j hj => by
            obtain rfl : j = 0 := by omega
            rfl⟩
        (by
          rintro k ⟨⟨a, b, c⟩, u, w⟩ hk hk' ⟨ha, hb, hc, hu, hw⟩
          simp only at ha hb hc hu hw
          subst hu hw
          obtain ⟨a', ea, ra, sa⟩ := Vortex.push_ok hp hk ha
          obtain ⟨b', eb, rb, sb⟩ := Vortex.push_ok hp hk hb
          obtain ⟨c', ec, rc, sc⟩ := Vortex.push_ok hp hk hc
          have hm : goMod (k : Int) (p : Int) = .ok ((k % p : Nat) : Int) := by
            rw [goMod, if_neg (by omega)]; rfl
          have e : (k : Int) - 1 = ((k - 1 : Nat) : Int) := by omega
          have ea' : Vortex.push a ((k % p : Nat) : Int) (abs (hi x k -. lo x (k - 1))) = .ok a' := ea
          have eb' : Vortex.push b ((k % p : Nat) : Int) (abs (lo x k -. hi x (k - 1))) = .ok b' := eb
          have ec' : Vortex.push c ((k % p : Nat) : Int) (max (hi x k -. lo x k)
            (max (abs (hi x k -. cl x (k - 1))) (abs (lo x k -. cl x (k - 1))))) = .ok c' := ec
          refine ⟨((a', b', c'), filled n (k + 1) (viPlus p x) (fl 0), filled n (k + 1) (viMinus p x) (fl 0)), ?_,
            ra, rb, rc, rfl, rfl⟩
          simp only [hm, ok_bind, e, idx_tab hk', idx_tab (show k - 1 < n by omega), ea', eb', ec']
          rw [setAt_filled hk', ok_bind, setAt_filled hk']
          · rfl
          · rw [viMinus, if_neg (by omega), sb, sc]
          · rw [viPlus, if_neg (by omega), sa, sc])
      obtain ⟨s1, s2, s3⟩ := s
      simp only at e1 e2
      subst e1 e2
      rw [show (1 : Int) = ((1 : Nat) : Int) from rfl]
      refine Eq.trans (congrArg (fun g => g >>= _) hs) ?_
      simp only [ok_bind, filled_full, tab_length]
      exact fin
  · show ∃ p, Vortex.Calculation period it data = _
    simp only [not_or, not_and, not_lt] at h
    simp only [Vortex.Calculation, GetOHLC_tab hx, ohlcOf, ok_bind, tab_length, mk_nat]
    rcases lt_or_eq_of_le h.1 with h1 | rfl
    · refine err_bind ⟨.makeLen, ?_⟩
      rw [mk, if_neg (by omega)]
    · refine bind_err _ fun _ => bind_err _ fun _ => bind_err _ fun _ => err_bind ⟨.divZero, ?_⟩
      exact goFor_error_first (by have := h.2 rfl; omega) rfl

end Verif.Ind
