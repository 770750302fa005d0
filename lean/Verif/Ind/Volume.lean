import Verif.Ind.Core
import Verif.Ind.Params

/-!
# Indicators of `volume/`

For every indicator: the body of `Calculation` on a source and the old data, its closed form
(`...F`, the record of one candle), and the proof that the one computes the other.
-/

set_option linter.unusedSectionVars false

namespace Verif.Ind
open Verif Verif.Klines Verif.Ta GoFloat

variable {F : Type} [GoFloat F]

/-- Appends one `{Time, Value}` record per entry of `vals` (the loop at the end of most `Calculation`
methods). -/
def appendRecs (e : Item F) (vals : List F) (data : List (Rec F)) : Go (List (Rec F)) :=
  appendLoop vals.length data fun i => do
    let t ← candleTime e i
    let v ← idx vals i
    pure ⟨t, v⟩

theorem appendRecs_tab {it : Item F} {n : Nat} {x : Nat → Candle F} (hx : it.candles = tab n x)
    (v : Nat → F) (data : List (Rec F)) :
    appendRecs it (tab n v) data = .ok (data ++ tab n fun i => ⟨ti x i, v i⟩) := by
  unfold appendRecs
  rw [tab_length]
  exact appendLoop_tab _ fun k hk => by rw [candleTime_tab hx hk, idx_tab hk]; rfl

/-- Stores one `{Time, Value}` record per entry of `vals` in a new slice. -/
def makeRecs (e : Item F) (vals : List F) : Go (List (Rec F)) :=
  makeLoop vals.length vals.length Rec.zero fun i => do
    let t ← candleTime e i
    let v ← idx vals i
    pure ⟨t, v⟩

theorem makeRecs_tab {it : Item F} {n : Nat} {x : Nat → Candle F} (hx : it.candles = tab n x)
    (v : Nat → F) :
    makeRecs it (tab n v) = .ok (tab n fun i => ⟨ti x i, v i⟩) := by
  unfold makeRecs
  rw [tab_length]
  exact makeLoop_tab _ fun k hk => by rw [candleTime_tab hx hk, idx_tab hk]; rfl

/-- An indicator that keeps a pointer to the item and stores `{Time, Value}` records. -/
abbrev recInd (compute : Item F → List (Rec F) → Go (List (Rec F))) : Indicator F :=
  { S := Item F, D := Rec F, source := pure, compute := compute }

/-! ## AccumulationDistribution -/

/-- Models volume/AccumulationDistribution.go:47-77 `Calculation`. -/
def AD.Calculation (e : Item F) (data : List (Rec F)) : Go (List (Rec F)) := do
  let ohlc ← GetOHLC e
  let ad ← mk (ohlc.close.length : Int) (fl 0 : F)
  let (_, data) ← goFor 0 ad.length (ad, data) fun i (ad, data) => do
    let ad ← (if i > 0 then do
        let prev ← idx ad (i - 1)
        setAt ad i prev
      else pure ad)
    let v ← idx ohlc.volume i
    let c ← idx ohlc.close i
    let l ← idx ohlc.low i
    let h ← idx ohlc.high i
    let val := v *. (((c -. l) -. (h -. c)) /. (h -. l))
    let cur ← idx ad i
    let ad ← setAt ad i (if isNaN val then cur +. fl 0 else cur +. val)
    let t ← candleTime e i
    let a ← idx ad i
    pure (ad, data ++ [⟨t, a⟩])
  pure data

/-- `AccumulationDistribution`. -/
abbrev AD : Indicator F := recInd AD.Calculation

/-- The money flow volume of one candle, as `Calculation` computes it. -/
def adVal (x : Nat → Candle F) (i : Nat) : F :=
  vo x i *. (((cl x i -. lo x i) -. (hi x i -. cl x i)) /. (hi x i -. lo x i))

/-- The line at one candle. -/
def adF (x : Nat → Candle F) : Nat → F
  | 0 => if isNaN (adVal x 0) then fl 0 +. fl 0 else fl 0 +. adVal x 0
  | k + 1 => if isNaN (adVal x (k + 1)) then adF x k +. fl 0 else adF x k +. adVal x (k + 1)

/-- The record of one candle. -/
def AD.out (x : Nat → Candle F) (i : Nat) : Rec F := ⟨ti x i, adF x i⟩

theorem AD.appends : Appends (AD (F := F)) (fun _ => True) AD.out := by
  intro it n x hx
  refine ⟨it, rfl, fun _ data => ?_, fun h => absurd trivial h⟩
  show AD.Calculation it data = _
  simp only [AD.Calculation, GetOHLC_tab hx, ohlcOf, ok_bind, tab_length, mk_nat, List.length_replicate]
  rw [goFor_acc₀ (S := fun k => (filled n k (adF x) (fl 0), data ++ tab k (AD.out x)))]
  · rfl
  · simp [← filled_zero]
  · intro k hk
    simp only [idx_tab hk, ok_bind, candleTime_tab hx hk]
    cases k with
    | zero =>
      have e0 : idx (filled n 0 (adF x) (fl 0)) ((0 : Nat) : Int) = .ok (fl 0) := by
        unfold filled; rw [idx_tab hk]; simp
      rw [if_neg (by simp)]
      simp only [pure_eq_ok, ok_bind, e0]
      rw [show (if isNaN (vo x 0 *. ((cl x 0 -. lo x 0 -. (hi x 0 -. cl x 0)) /. (hi x 0 -. lo x 0))) = true
        then fl 0 +. fl 0 else fl 0 +. vo x 0 *. ((cl x 0 -. lo x 0 -. (hi x 0 -. cl x 0)) /. (hi x 0 -. lo x 0)))
        = adF x 0 from rfl, setAt_filled (f := adF x) hk rfl, ok_bind, idx_filled (by omega) hk, ok_bind, tab_succ, List.append_assoc]
      rfl
    | succ k =>
      have e : ((k + 1 : Nat) : Int) - 1 = (k : Int) := by omega
      rw [if_pos (by omega), e, idx_filled (by omega) (by omega), ok_bind]
      rw [setAt_nat (by simpa using hk)]
      simp only [ok_bind]
      rw [idx_of_getElem? (v := adF x k) (by simp [hk]), ok_bind,
        setAt_nat (by simpa using hk)]
      simp only [ok_bind, List.set_set]
      have := setAt_filled (n := n) (k := k + 1) (f := adF x) (z := fl 0) (v := adF x (k + 1)) hk rfl
      rw [setAt_nat (by simpa using hk)] at this
      have e2 : (if isNaN (vo x (k + 1) *. (((cl x (k + 1) -. lo x (k + 1)) -. (hi x (k + 1) -. cl x (k + 1)))
          /. (hi x (k + 1) -. lo x (k + 1)))) = true then adF x k +. fl 0
          else adF x k +. vo x (k + 1) *. (((cl x (k + 1) -. lo x (k + 1)) -. (hi x (k + 1) -. cl x (k + 1)))
          /. (hi x (k + 1) -. lo x (k + 1)))) = adF x (k + 1) := rfl
      rw [e2]
      injection this with this
      rw [this, idx_filled (by omega) hk, ok_bind, tab_succ (k + 1)]
      simp [AD.out]

/-- Models volume/AccumulationDistribution.go:80-89 `GetValues` of a new object. -/
def AD.GetValues (it : Item F) : Go (List F) := (AD (F := F)).get (fun _ d => valuesLoop Rec.value d) it

theorem AD.GetValues_tab {it : Item F} {n : Nat} {x : Nat → Candle F} (hx : it.candles = tab n x) :
    AD.GetValues it = .ok (tab n (adF x)) :=
  (Indicator.get_of_data (I := AD) rfl ((AD.appends.yields it n x hx).1 trivial)).trans
    (valuesLoop_tab ..)

/-! ## ChaikinMoneyFlow -/

/-- Models volume/ChaikinMoneyFlow.go:52-79 `Calculation`. -/
def CMF.Calculation (period : Int) (e : Item F) (data : List (Rec F)) : Go (List (Rec F)) := do
  let ohlc ← GetOHLC e
  let cl ← Subtract ohlc.close ohlc.low
  let hc ← Subtract ohlc.high ohlc.close
  let num ← Subtract cl hc
  let hl ← Subtract ohlc.high ohlc.low
  let moneyFlowMultiplier ← Divide num hl
  let moneyFlowVolume ← Multiply moneyFlowMultiplier ohlc.volume
  let s1 ← Sum period moneyFlowVolume
  let s2 ← Sum period ohlc.volume
  let cmf ← Divide s1 s2
  appendRecs e cmf data

/-- `ChaikinMoneyFlow`. -/
abbrev CMF (period : Int) : Indicator F := recInd (CMF.Calculation period)

/-- Money flow volume of one candle. -/
def mfv (x : Nat → Candle F) (i : Nat) : F :=
  safeDiv (subF (subF (cl x i) (lo x i)) (subF (hi x i) (cl x i))) (subF (hi x i) (lo x i)) *. vo x i

/-- The record of one candle. -/
def CMF.out (period : Int) (x : Nat → Candle F) (i : Nat) : Rec F :=
  ⟨ti x i, safeDiv (runSum period.toNat (mfv x) (i + 1)) (runSum period.toNat (vo x) (i + 1))⟩

theorem CMF.appends (period : Int) : Appends (CMF (F := F) period) (okS period) (CMF.out period) := by
  intro it n x hx
  refine ⟨it, rfl, fun h data => ?_, fun h data => ?_⟩
  · show CMF.Calculation period it data = _
    simp only [CMF.Calculation, GetOHLC_tab hx, ohlcOf, ok_bind, Subtract_tab, Divide_tab, Multiply_tab,
      Nat.le_refl, if_true, Sum_ok _ h, appendRecs_tab hx]
    rfl
  · show ∃ p, CMF.Calculation period it data = _
    obtain ⟨p, hp⟩ := Sum_err (mfv x) h
    refine ⟨p, ?_⟩
    simp only [CMF.Calculation, GetOHLC_tab hx, ohlcOf, ok_bind, Subtract_tab, Divide_tab, Multiply_tab,
      Nat.le_refl, if_true]
    exact congrArg (· >>= _) hp

/-! ## EaseOfMovement -/

/-- Models volume/EaseOfMovement.go:48-69 `Calculation`. -/
def EMV.Calculation (period : Int) (e : Item F) (data : List (Rec F)) : Go (List (Rec F)) := do
  let ohlc ← GetOHLC e
  let s ← Add ohlc.high ohlc.low
  let mid ← DivideBy s (fl 2)
  let distanceMoved ← Diff mid 1
  let v ← DivideBy ohlc.volume (fl 100000000)
  let hl ← Subtract ohlc.high ohlc.low
  let boxRatio ← Divide v hl
  let q ← Divide distanceMoved boxRatio
  let emv ← Sma period q
  appendRecs e emv data

/-- `EaseOfMovement`. -/
abbrev EMV (period : Int) : Indicator F := recInd (EMV.Calculation period)

/-- Midpoint as computed by `EaseOfMovement` and `AwesomeOscillator`. -/
def midF (x : Nat → Candle F) (i : Nat) : F := (hi x i +. lo x i) *. (fl 1 /. fl 2)

/-- The one-period value of one candle. -/
def emv1 (x : Nat → Candle F) (i : Nat) : F :=
  safeDiv (subF (midF x i) (shiftF 1 (fl 0) (midF x) i))
    (safeDiv (vo x i *. (fl 1 /. fl 100000000)) (subF (hi x i) (lo x i)))

/-- The record of one candle. -/
def EMV.out (period : Int) (x : Nat → Candle F) (i : Nat) : Rec F :=
  ⟨ti x i, smaF period.toNat (emv1 x) i⟩

theorem Diff_one (n : Nat) (x : Nat → F) :
    Diff (tab n x) 1 = .ok (tab n fun i => subF (x i) (shiftF 1 (fl 0) x i)) := Diff_tab 1 n x

theorem EMV.appends (period : Int) : Appends (EMV (F := F) period) (okS period) (EMV.out period) := by
  intro it n x hx
  refine ⟨it, rfl, fun h data => ?_, fun h data => ?_⟩
  · show EMV.Calculation period it data = _
    simp only [EMV.Calculation, GetOHLC_tab hx, ohlcOf, ok_bind, Add_tab, DivideBy_tab, Diff_one,
      Subtract_tab, Divide_tab, Nat.le_refl, if_true, Sma_ok _ h, appendRecs_tab hx]
    rfl
  · show ∃ p, EMV.Calculation period it data = _
    obtain ⟨p, hp⟩ := Sma_err (emv1 x) h
    refine ⟨p, ?_⟩
    simp only [EMV.Calculation, GetOHLC_tab hx, ohlcOf, ok_bind, Add_tab, DivideBy_tab, Diff_one,
      Subtract_tab, Divide_tab, Nat.le_refl, if_true]
    show (Sma period (tab n (emv1 x)) >>= _) = _
    rw [hp]; rfl

/-! ## ForceIndex -/

/-- Models volume/ForceIndex.go:44-61 `Calculation`. -/
def Force.Calculation (period : Int) (e : Item F) (data : List (Rec F)) : Go (List (Rec F)) := do
  let ohlc ← GetOHLC e
  let d ← Diff ohlc.close 1
  let m ← Multiply d ohlc.volume
  let vals ← Ema period m
  appendRecs e vals data

/-- `ForceIndex`. -/
abbrev Force (period : Int) : Indicator F := recInd (Force.Calculation period)

/-- The record of one candle. -/
def Force.out (period : Int) (x : Nat → Candle F) (i : Nat) : Rec F :=
  ⟨ti x i, emaF period (fun j => subF (cl x j) (shiftF 1 (fl 0) (cl x) j) *. vo x j) i⟩

theorem Force.appends (period : Int) :
    Appends (Force (F := F) period) (fun _ => True) (Force.out period) := by
  intro it n x hx
  refine ⟨it, rfl, fun _ data => ?_, fun h => absurd trivial h⟩
  show Force.Calculation period it data = _
  simp only [Force.Calculation, GetOHLC_tab hx, ohlcOf, ok_bind, Diff_one, Multiply_tab, Ema_tab,
    Nat.le_refl, if_true, appendRecs_tab hx]
  rfl

/-! ## NegativeVolumeIndex -/

/-- Models volume/NegativeVolumeIndex.go:46-72 `Calculation`. -/
def NVI.Calculation (e : Item F) (data : List (Rec F)) : Go (List (Rec F)) := do
  let ohlc ← GetOHLC e
  let nvi ← mk (ohlc.close.length : Int) (fl 0 : F)
  let nvi ← goFor 0 nvi.length nvi fun i nvi => do
    if i = 0 then setAt nvi i (fl 1000)
    else
      let v0 ← idx ohlc.volume (i - 1)
      let v1 ← idx ohlc.volume i
      let prev ← idx nvi (i - 1)
      if v0 <. v1 then setAt nvi i prev
      else
        let c1 ← idx ohlc.close i
        let c0 ← idx ohlc.close (i - 1)
        setAt nvi i (prev +. (((c1 -. c0) /. c0) *. prev))
  appendRecs e nvi data

/-- `NegativeVolumeIndex`. -/
abbrev NVI : Indicator F := recInd NVI.Calculation

/-- The index at one candle. -/
def nviF (x : Nat → Candle F) : Nat → F
  | 0 => fl 1000
  | k + 1 =>
    if vo x k <. vo x (k + 1) then nviF x k
    else nviF x k +. (((cl x (k + 1) -. cl x k) /. cl x k) *. nviF x k)

/-- The record of one candle. -/
def NVI.out (x : Nat → Candle F) (i : Nat) : Rec F := ⟨ti x i, nviF x i⟩

theorem NVI.appends : Appends (NVI (F := F)) (fun _ => True) NVI.out := by
  intro it n x hx
  refine ⟨it, rfl, fun _ data => ?_, fun h => absurd trivial h⟩
  show NVI.Calculation it data = _
  simp only [NVI.Calculation, GetOHLC_tab hx, ohlcOf, ok_bind, tab_length, mk_nat, List.length_replicate]
  rw [goFor_fill₀ (nviF x)]
  · rw [ok_bind, appendRecs_tab hx]; rfl
  · intro k hk
    cases k with
    | zero => rw [if_pos (by simp)]; exact setAt_filled (f := nviF x) hk rfl
    | succ k =>
      have e : ((k + 1 : Nat) : Int) - 1 = (k : Int) := by omega
      rw [if_neg (by omega), e]
      simp only [idx_tab hk, idx_tab (show k < n by omega), ok_bind,
        idx_filled (show k < k + 1 by omega) (show k < n by omega)]
      split
      · next h => rw [setAt_filled hk (by simp [nviF, h])]
      · next h => rw [setAt_filled hk (by simp [nviF, h])]

/-! ## Obv -/

/-- Models volume/Obv.go:35-65 `Calculation`. The running total is read back from `e.data`. -/
def OBV.Calculation (e : Item F) (data : List (Rec F)) : Go (List (Rec F)) := do
  let ohlc ← GetOHLC e
  goFor 0 e.candles.length data fun i data => do
    let value ← (if i - 1 = -1 then pure (fl 0)
      else do
        let c1 ← idx ohlc.close i
        let c0 ← idx ohlc.close (i - 1)
        if c1 >. c0 then
          let d ← idx data (i - 1)
          let v ← idx ohlc.volume i
          pure (d.value +. v)
        else if c1 <. c0 then
          let d ← idx data (i - 1)
          let v ← idx ohlc.volume i
          pure (d.value -. v)
        else if c1 ==. c0 then
          let d ← idx data (i - 1)
          pure d.value
        else pure (fl 0))
    let t ← idx ohlc.timeUnix i
    pure (data ++ [⟨t, value⟩])

/-- `Obv`. -/
abbrev OBV : Indicator F := recInd OBV.Calculation

/-- The line at one candle. -/
def obvF (x : Nat → Candle F) : Nat → F
  | 0 => fl 0
  | k + 1 =>
    if cl x (k + 1) >. cl x k then obvF x k +. vo x (k + 1)
    else if cl x (k + 1) <. cl x k then obvF x k -. vo x (k + 1)
    else if cl x (k + 1) ==. cl x k then obvF x k
    else fl 0

/-- The record of one candle. -/
def OBV.out (x : Nat → Candle F) (i : Nat) : Rec F := ⟨ti x i, obvF x i⟩

/-- `Calculation` appends as long as the cache starts with the right records or is empty. -/
theorem OBV.run {it : Item F} {n : Nat} {x : Nat → Candle F} (hx : it.candles = tab n x)
    (data : List (Rec F))
    (hd' : ∀ k j, k < n → j < k → (data ++ tab k (OBV.out x))[j]? = some (OBV.out x j)) :
    OBV.Calculation it data = .ok (data ++ tab n (OBV.out x)) := by
  simp only [OBV.Calculation, GetOHLC_tab hx, ohlcOf, ok_bind]
  rw [show it.candles.length = n by rw [hx, tab_length]]
  rw [goFor_acc₀ (S := fun k => data ++ tab k (OBV.out x)) (by simp)]
  intro k hk
  cases k with
  | zero => rw [if_pos (by simp), idx_tab hk]; simp [tab_succ, OBV.out, obvF]
  | succ k =>
    have e : ((k + 1 : Nat) : Int) - 1 = (k : Int) := by omega
    rw [if_neg (by omega), e]
    simp only [idx_tab hk, idx_tab (show k < n by omega), ok_bind,
      idx_of_getElem? (hd' (k + 1) k hk (by omega)), pure_eq_ok]
    have fin : ∀ v, v = obvF x (k + 1) → (Except.ok (data ++ tab (k + 1) (OBV.out x) ++ [⟨ti x (k + 1), v⟩]) :
        Go (List (Rec F))) = .ok (data ++ tab (k + 1 + 1) (OBV.out x)) := by
      rintro v rfl
      rw [tab_succ (k + 1)]; simp [OBV.out]
    split
    · next h => exact fin _ (by simp [obvF, h, OBV.out])
    · next h =>
      split
      · next h' => exact fin _ (by simp [obvF, h, h', OBV.out])
      · next h' =>
        split
        · next h'' => exact fin _ (by simp [obvF, h, h', h'', OBV.out])
        · next h'' => exact fin _ (by simp [obvF, h, h', h''])

theorem reps_getElem? {α : Type} {n j : Nat} (f : Nat → α) (m : Nat) (hj : j < n) :
    (reps (m + 1) (tab n f))[j]? = some (f j) := by
  induction m with
  | zero => rw [reps_succ, reps_zero, List.nil_append, tab_getElem?_lt hj]
  | succ m ih =>
    rw [reps_succ, List.getElem?_append_left, ih]
    exact (List.getElem?_eq_some_iff.1 ih).1

theorem OBV.grows : Grows (OBV (F := F)) (fun _ => True) OBV.out := by
  intro it n x hx
  refine ⟨it, rfl, fun _ m => ?_, fun h => absurd trivial h⟩
  rw [reps_succ]
  refine OBV.run hx _ fun k j hk hj => ?_
  cases m with
  | zero => rw [reps_zero, List.nil_append, tab_getElem?_lt hj]
  | succ m =>
    have := reps_getElem? (OBV.out x) m (show j < n by omega)
    rw [List.getElem?_append_left, this]
    exact (List.getElem?_eq_some_iff.1 this).1

/-! ## VolumePriceTrend -/

/-- Models volume/VolumePriceTrend.go:44-63 `Calculation`. -/
def VPT.Calculation (period : Int) (e : Item F) (data : List (Rec F)) : Go (List (Rec F)) := do
  let ohlc ← GetOHLC e
  let c0 ← idx ohlc.close 0
  let previousClosing ← ShiftRightAndFillBy period c0 ohlc.close
  let d ← Subtract ohlc.close previousClosing
  let q ← Divide d previousClosing
  let vpt ← Multiply ohlc.volume q
  let vals ← Sum vpt.length vpt
  appendRecs e vals data

/-- `VolumePriceTrend`. -/
abbrev VPT (period : Int) : Indicator F := recInd (VPT.Calculation period)

/-- The step of one candle. -/
def vpt1 (p : Nat) (x : Nat → Candle F) (i : Nat) : F :=
  vo x i *. safeDiv (subF (cl x i) (shiftF p (cl x 0) (cl x) i)) (shiftF p (cl x 0) (cl x) i)

/-- The record of one candle. -/
def VPT.out (period : Int) (x : Nat → Candle F) (i : Nat) : Rec F :=
  ⟨ti x i, accum (vpt1 period.toNat x) 0 (i + 1)⟩

theorem runSum_big {p : Nat} (x : Nat → F) {k : Nat} (h : k ≤ p) : runSum p x k = accum x 0 k := by
  induction k with
  | zero => rfl
  | succ k ih => rw [runSum, if_neg (by omega), ih (by omega), accum]; simp

theorem VPT.appends (period : Int) :
    Appends (VPT (F := F) period) (fun n => 0 < n ∧ 0 ≤ period) (VPT.out period) := by
  intro it n x hx
  refine ⟨it, rfl, fun h data => ?_, fun h data => ?_⟩
  · show VPT.Calculation period it data = _
    have h0 : idx (tab n (cl x)) 0 = .ok (cl x 0) := idx_tab (i := 0) h.1
    simp only [VPT.Calculation, GetOHLC_tab hx, ohlcOf, ok_bind, h0,
      ShiftRightAndFillBy_ok _ _ (Or.inl h.2 : okS period n), Subtract_tab, Divide_tab, Multiply_tab,
      Nat.le_refl, if_true, tab_length, Sum_tab, appendRecs_tab hx]
    refine congrArg (fun l => Except.ok (data ++ l)) (tab_ext fun i hi => ?_)
    show (⟨_, _⟩ : Rec F) = ⟨_, _⟩
    rw [runSum_big _ (by omega)]
    rfl
  · show ∃ p, VPT.Calculation period it data = _
    by_cases hn : n = 0
    · subst hn
      exact ⟨.index, by simp [VPT.Calculation, GetOHLC_tab hx, ohlcOf, idx]⟩
    · have h0 : idx (tab n (cl x)) 0 = .ok (cl x 0) := idx_tab (i := 0) (by omega)
      obtain ⟨p, hp⟩ := ShiftRightAndFillBy_err (p := period) (n := n) (cl x 0) (cl x)
        (by simp only [okS, not_or]; omega)
      exact ⟨p, by simp [VPT.Calculation, GetOHLC_tab hx, ohlcOf, h0, hp]⟩

/-! ## Vwma -/

/-- Models volume/Vwma.go:47-62 `Calculation`. -/
def VWMA.Calculation (period : Int) (e : Item F) (data : List (Rec F)) : Go (List (Rec F)) := do
  let ohlc ← GetOHLC e
  let cv ← Multiply ohlc.close ohlc.volume
  let s1 ← Sum period cv
  let s2 ← Sum period ohlc.volume
  let vwmas ← Divide s1 s2
  appendRecs e vwmas data

/-- `Vwma`. -/
abbrev VWMA (period : Int) : Indicator F := recInd (VWMA.Calculation period)

/-- The record of one candle. -/
def VWMA.out (period : Int) (x : Nat → Candle F) (i : Nat) : Rec F :=
  ⟨ti x i, safeDiv (runSum period.toNat (fun j => cl x j *. vo x j) (i + 1))
    (runSum period.toNat (vo x) (i + 1))⟩

theorem VWMA.appends (period : Int) : Appends (VWMA (F := F) period) (okS period) (VWMA.out period) := by
  intro it n x hx
  refine ⟨it, rfl, fun h data => ?_, fun h data => ?_⟩
  · show VWMA.Calculation period it data = _
    simp only [VWMA.Calculation, GetOHLC_tab hx, ohlcOf, ok_bind, Multiply_tab, Divide_tab,
      Nat.le_refl, if_true, Sum_ok _ h, appendRecs_tab hx]
    rfl
  · show ∃ p, VWMA.Calculation period it data = _
    obtain ⟨p, hp⟩ := Sum_err (fun j => cl x j *. vo x j) h
    exact ⟨p, by simp [VWMA.Calculation, GetOHLC_tab hx, ohlcOf, Multiply_tab, hp]⟩

/-! ## MoneyFlowIndex -/

section math
variable {F : Type} [GoMath F]

/-- Models volume/MoneyFlowIndex.go:51-86 `Calculation`. -/
def MFI.Calculation (period : Int) (e : Item F) (data : List (Rec F)) : Go (List (Rec F)) := do
  let ohlc ← GetOHLC e
  let typicalPrice ← makeLoop ohlc.close.length ohlc.close.length (fl 0) fun i => do
    let h ← idx ohlc.high i
    let l ← idx ohlc.low i
    let c ← idx ohlc.close i
    pure ((h +. l +. c) /. fl 3)
  let rawMoneyFlow ← Multiply typicalPrice ohlc.volume
  let d ← Diff rawMoneyFlow 1
  let signs ← ExtractSign d
  let moneyFlow ← Multiply signs rawMoneyFlow
  let positiveMoneyFlow ← KeepPositives moneyFlow
  let negativeMoneyFlow ← KeepNegatives moneyFlow
  let sp ← Sum period positiveMoneyFlow
  let neg ← MultiplyBy negativeMoneyFlow (fl (-1))
  let sn ← Sum period neg
  let moneyRatio ← Divide sp sn
  let a ← AddBy moneyRatio (fl 1)
  let b ← Pow a (fl (-1))
  let c ← MultiplyBy b (fl (-100))
  let moneyFlowIndex ← AddBy c (fl 100)
  appendRecs e moneyFlowIndex data

/-- Models volume/MoneyFlowIndex.go:92-118 `AnalysisSide`. -/
def MFI.sides (e : Item F) (data : List (Rec F)) : Go (List Side) :=
  sideLoop e.candles.length 1 data fun _ prev v =>
    pure (if v.value <. fl 10 && prev.value >. fl 10 then Buy
      else if v.value >. fl 90 && prev.value <. fl 90 then Sell else Hold)

/-- `MoneyFlowIndex`. -/
abbrev MFI (period : Int) : Strat F :=
  { recInd (MFI.Calculation period) with sides := MFI.sides }

/-- Raw money flow of one candle. -/
def rawF (x : Nat → Candle F) (i : Nat) : F := ((hi x i +. lo x i +. cl x i) /. fl 3) *. vo x i

/-- Signed money flow of one candle. -/
def flowF (x : Nat → Candle F) (i : Nat) : F :=
  (if subF (rawF x i) (shiftF 1 (fl 0) (rawF x) i) >=. fl 0 then fl 1 else fl (-1)) *. rawF x i

/-- The index at one candle. -/
def mfiF (p : Nat) (x : Nat → Candle F) (i : Nat) : F :=
  GoMath.pow
    (safeDiv (runSum p (fun j => if flowF x j >. fl 0 then flowF x j else fl 0) (i + 1))
      (runSum p (fun j => (if flowF x j <. fl 0 then flowF x j else fl 0) *. fl (-1)) (i + 1)) +. fl 1)
    (fl (-1)) *. fl (-100) +. fl 100

/-- The record of one candle. -/
def MFI.out (period : Int) (x : Nat → Candle F) (i : Nat) : Rec F := ⟨ti x i, mfiF period.toNat x i⟩

theorem MFI.typical (n : Nat) (x : Nat → Candle F) :
    (makeLoop (n : Int) (n : Int) (fl 0 : F) fun i => do
      let h ← idx (tab n (hi x)) i
      let l ← idx (tab n (lo x)) i
      let c ← idx (tab n (cl x)) i
      pure ((h +. l +. c) /. fl 3)) = .ok (tab n fun i => (hi x i +. lo x i +. cl x i) /. fl 3) :=
  makeLoop_tab _ fun k hk => by simp only [idx_tab hk, ok_bind]; rfl

theorem MFI.appends (period : Int) :
    Appends (MFI (F := F) period).toIndicator (okS period) (MFI.out period) := by
  intro it n x hx
  refine ⟨it, rfl, fun h data => ?_, fun h data => ?_⟩
  · show MFI.Calculation period it data = _
    simp only [MFI.Calculation, GetOHLC_tab hx, ohlcOf, ok_bind, tab_length, MFI.typical, Multiply_tab,
      Diff_one, ExtractSign_tab, KeepPositives_tab, KeepNegatives_tab, MultiplyBy_tab, Divide_tab,
      AddBy_tab, Pow_tab, Nat.le_refl, if_true, Sum_ok _ h, appendRecs_tab hx]
    rfl
  · show ∃ p, MFI.Calculation period it data = _
    obtain ⟨p, hp⟩ := Sum_err (fun j => if flowF x j >. fl 0 then flowF x j else fl 0) h
    refine ⟨p, ?_⟩
    simp only [MFI.Calculation, GetOHLC_tab hx, ohlcOf, ok_bind, tab_length, MFI.typical, Multiply_tab,
      Diff_one, ExtractSign_tab, KeepPositives_tab, KeepNegatives_tab, Nat.le_refl, if_true]
    show (Sum period (tab n _) >>= _) = _
    refine Eq.trans (congrArg (· >>= _) hp) rfl

end math

end Verif.Ind
