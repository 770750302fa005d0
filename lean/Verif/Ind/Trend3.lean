import Verif.Ind.Trend2

/-!
# Indicators of `trend/`, third part: Kdj, ReversalSignals, StochasticHeat, BreakoutProbability
-/

set_option linter.unusedSectionVars false

namespace Verif.Ind
open Verif Verif.Klines Verif.Ta GoFloat

variable {F : Type} [GoFloat F]

/-! ## Kdj -/

/-- Models trend/Kdj.go `KdjData`. -/
structure KDJ.Data (F : Type) where
  time : Int
  rsv : F
  k : F
  d : F
  j : F
  deriving DecidableEq, Repr

/-- The zero record. -/
def KDJ.zero : KDJ.Data F := ⟨zeroUnix, fl 0, fl 0, fl 0, fl 0⟩

/-- Models trend/Kdj.go:246-258 `arrayLowest`. -/
def KDJ.arrayLowest (a : List F) : Go F := do
  let lowest ← idx a 0
  goFor 1 a.length lowest fun i lowest => do
    let v ← idx a i
    pure (if v <. lowest then v else lowest)

/-- Models trend/Kdj.go:260-272 `arrayHighest`. -/
def KDJ.arrayHighest (a : List F) : Go F := do
  let highest ← idx a 0
  goFor 1 a.length highest fun i highest => do
    let v ← idx a i
    pure (if v >. highest then v else highest)

/-- `2.0/3` and `1.0/3` are untyped constants. -/
def twoThirds : F := lit (2 / 3)
@[inherit_doc twoThirds] def oneThird : F := lit (1 / 3)

/-- Models trend/Kdj.go:133-180 `calculationKD`. -/
def KDJ.calculationKD (period : Int) (e : Item F) : Go (List F × List F × List F) := do
  let o ← GetOHLC e
  let rsv ← mk o.low.length (fl 0 : F)
  let k ← mk o.low.length (fl 0 : F)
  let d ← mk o.low.length (fl 0 : F)
  let (_, rsv, k, d) ← goFor 0 o.low.length ((([] : List F), ([] : List F)), rsv, k, d)
    fun i ((lows, highs), rsv, k, d) => do
      let l ← idx o.low i
      let lows := lows ++ [l]
      let h ← idx o.high i
      let highs := highs ++ [h]
      if period = lows.length then
        let lowest ← KDJ.arrayLowest lows
        let highest ← KDJ.arrayHighest highs
        let c ← idx o.close i
        let r := if highest -. lowest <. lit (1 / 1000000) then fl 100
          else (c -. lowest) /. (highest -. lowest) *. fl 100
        let rsv ← setAt rsv i r
        let kp ← idx k (i - 1)
        let k ← setAt k i (twoThirds *. kp +. oneThird *. r)
        let dp ← idx d (i - 1)
        let kk ← idx k i
        let d ← setAt d i (twoThirds *. dp +. oneThird *. kk)
        let lows ← slice lows 1 lows.length
        let highs ← slice highs 1 highs.length
        pure ((lows, highs), rsv, k, d)
      else
        let k ← setAt k i (fl 50)
        let d ← setAt d i (fl 50)
        let rsv ← setAt rsv i (fl 0)
        pure ((lows, highs), rsv, k, d)
  pure (rsv, k, d)

/-- Models trend/Kdj.go:46-65 `Calculation` and 183-194 `calculationJ`. -/
def KDJ.Calculation (period : Int) (e : Item F) (_ : List (KDJ.Data F)) : Go (List (KDJ.Data F)) := do
  let (rsv, k, d) ← KDJ.calculationKD period e
  let data ← makeLoop rsv.length rsv.length KDJ.zero fun i => do
    let r ← idx rsv i
    let kk ← idx k i
    let dd ← idx d i
    let t ← candleTime e i
    pure (⟨t, r, kk, dd, fl 0⟩ : KDJ.Data F)
  let j ← makeLoop data.length data.length (fl 0 : F) fun i => do
    let v ← idx data i
    pure (fl 3 *. v.k -. fl 2 *. v.d)
  goFor 0 rsv.length data fun i data => do
    let v ← idx data i
    let jj ← idx j i
    setAt data i { v with j := jj }

/-- The rule of trend/Kdj.go:83-89. -/
def KDJ.rule (prev v : KDJ.Data F) : Side :=
  if v.k >. v.d && v.j >. v.d && prev.k <. prev.d && prev.j <. prev.d then Buy
  else if v.k <. v.d && v.j <. v.d && prev.k >. prev.d && prev.j >. prev.d then Sell
  else Hold

/-- Models trend/Kdj.go:69-95 `AnalysisSide`. -/
def KDJ.sides (e : Item F) (data : List (KDJ.Data F)) : Go (List Side) :=
  sideLoop e.candles.length 1 data fun _ prev v => pure (KDJ.rule prev v)

/-- `Kdj`. -/
abbrev KDJ (period : Int) : Strat F :=
  { S := Item F, D := KDJ.Data F, source := pure, compute := KDJ.Calculation period, sides := KDJ.sides }

/-- Models trend/Kdj.go:106-130 `GetListK`, `GetListD`, `GetListJ`, which do not run `Calculation`. -/
def KDJ.GetList {period : Int} (proj : KDJ.Data F → F) (e : Obj (KDJ (F := F) period).toIndicator) :
    Go (List F) := valuesAppend proj e.data

/-- Smallest of `x lo, ..., x (lo + c)`, by the comparisons of the code. -/
def lowF (x : Nat → F) (lo : Nat) : Nat → F
  | 0 => x lo
  | c + 1 => if x (lo + (c + 1)) <. lowF x lo c then x (lo + (c + 1)) else lowF x lo c
/-- Largest of `x lo, ..., x (lo + c)`. -/
def highF (x : Nat → F) (lo : Nat) : Nat → F
  | 0 => x lo
  | c + 1 => if x (lo + (c + 1)) >. highF x lo c then x (lo + (c + 1)) else highF x lo c

/-- Whether candle `i` has a full window. -/
def kdjFull (p : Int) (i : Nat) : Bool := decide (0 < p) && decide (p ≤ i + 1)

/-- `RSV` at one candle. -/
def rsvF (p : Int) (x : Nat → Candle F) (i : Nat) : F :=
  if kdjFull p i then
    let l := lowF (lo x) (i + 1 - p.toNat) (p.toNat - 1)
    let h := highF (hi x) (i + 1 - p.toNat) (p.toNat - 1)
    if h -. l <. lit (1 / 1000000) then fl 100 else (cl x i -. l) /. (h -. l) *. fl 100
  else fl 0

/-- `K` at one candle. -/
def kF (p : Int) (x : Nat → Candle F) : Nat → F
  | 0 => fl 50
  | i + 1 => if kdjFull p (i + 1) then twoThirds *. kF p x i +. oneThird *. rsvF p x (i + 1) else fl 50
/-- `D` at one candle. -/
def dF (p : Int) (x : Nat → Candle F) : Nat → F
  | 0 => fl 50
  | i + 1 => if kdjFull p (i + 1) then twoThirds *. dF p x i +. oneThird *. kF p x (i + 1) else fl 50

/-- The record of one candle. -/
def KDJ.out (period : Int) (x : Nat → Candle F) (i : Nat) : KDJ.Data F :=
  ⟨ti x i, rsvF period x i, kF period x i, dF period x i, fl 3 *. kF period x i -. fl 2 *. dF period x i⟩

/-- Where `Kdj` does not panic. -/
def okKdj (p : Int) (n : Nat) : Prop := p ≠ 1 ∨ n = 0

theorem arrayLowest_tab (m : Nat) (y : Nat → F) : KDJ.arrayLowest (tab (m + 1) y) = .ok (lowF y 0 m) := by
  have e0 : idx (tab (m + 1) y) 0 = .ok (y 0) := idx_tab (i := 0) (by omega)
  simp only [KDJ.arrayLowest, e0, ok_bind, tab_length]
  rw [show (1 : Int) = ((1 : Nat) : Int) from rfl,
    goFor_acc (s := y 0) (lo := 1) (by omega) (fun k => lowF y 0 (k - 1)) rfl]
  · rfl
  · intro k hk hk'
    obtain ⟨c, rfl⟩ : ∃ c, k = c + 1 := ⟨k - 1, by omega⟩
    simp only [idx_tab hk', ok_bind, Nat.add_sub_cancel, lowF, Nat.zero_add]
    rfl

theorem arrayHighest_tab (m : Nat) (y : Nat → F) : KDJ.arrayHighest (tab (m + 1) y) = .ok (highF y 0 m) := by
  have e0 : idx (tab (m + 1) y) 0 = .ok (y 0) := idx_tab (i := 0) (by omega)
  simp only [KDJ.arrayHighest, e0, ok_bind, tab_length]
  rw [show (1 : Int) = ((1 : Nat) : Int) from rfl,
    goFor_acc (s := y 0) (lo := 1) (by omega) (fun k => highF y 0 (k - 1)) rfl]
  · rfl
  · intro k hk hk'
    obtain ⟨c, rfl⟩ : ∃ c, k = c + 1 := ⟨k - 1, by omega⟩
    simp only [idx_tab hk', ok_bind, Nat.add_sub_cancel, highF, Nat.zero_add]
    rfl

theorem lowF_shift (x : Nat → F) (lo c : Nat) : lowF (fun j => x (lo + j)) 0 c = lowF x lo c := by
  induction c with
  | zero => rfl
  | succ c ih => simp only [lowF, ih, Nat.zero_add]
theorem highF_shift (x : Nat → F) (lo c : Nat) : highF (fun j => x (lo + j)) 0 c = highF x lo c := by
  induction c with
  | zero => rfl
  | succ c ih => simp only [highF, ih, Nat.zero_add]

/-- The window kept between iterations. -/
def kdjWin (p : Int) (y : Nat → F) (k : Nat) : List F :=
  if 0 < p ∧ p ≤ k then tab (p.toNat - 1) (fun j => y (k + 1 - p.toNat + j)) else tab k y

theorem KDJ.calculationKD_ok {p : Int} {n : Nat} {e : Item F} {x : Nat → Candle F}
    (hx : e.candles = tab n x) (h : okKdj p n) :
    KDJ.calculationKD p e = .ok (tab n (rsvF p x), tab n (kF p x), tab n (dF p x)) := by
  simp only [KDJ.calculationKD, GetOHLC_tab hx, ohlcOf, ok_bind, tab_length, mk_nat]
  rw [goFor_acc₀ (fun k => ((kdjWin p (lo x) k, kdjWin p (hi x) k), filled n k (rsvF p x) (fl 0),
    filled n k (kF p x) (fl 0), filled n k (dF p x) (fl 0)))]
  · simp only [ok_bind, filled_full]; rfl
  · simp only [← filled_zero, kdjWin]
    rw [if_neg (by omega), if_neg (by omega)]; rfl
  · intro k hk
    have hp1 : p ≠ 1 := by rcases h with h | h <;> omega
    simp only [idx_tab hk, ok_bind]
    by_cases hf : 0 < p ∧ p ≤ (k : Int) + 1
    · obtain ⟨q, rfl⟩ : ∃ q : Nat, p = ((q + 2 : Nat) : Int) := ⟨(p - 2).toNat, by omega⟩
      have hw : ∀ y : Nat → F, kdjWin ((q + 2 : Nat) : Int) y k ++ [y k]
          = tab (q + 2) (fun j => y (k + 1 - (q + 2) + j)) := by
        intro y
        unfold kdjWin
        by_cases hc : (q + 2 : Nat) ≤ k
        · rw [if_pos (by omega)]
          rw [tab_succ]
          simp only [Int.toNat_natCast]
          congr 3
          all_goals omega
        · rw [if_neg (by omega)]
          obtain rfl : k = q + 1 := by omega
          rw [← tab_succ]
          exact tab_ext fun j _ => by congr 1; omega
      have hw' : ∀ y : Nat → F, kdjWin ((q + 2 : Nat) : Int) y (k + 1)
          = tab (q + 1) (fun j => y (k + 1 - (q + 2) + (1 + j))) := by
        intro y
        unfold kdjWin
        rw [if_pos (by omega)]
        simp only [Int.toNat_natCast]
        exact tab_ext fun j _ => by congr 1; omega
      obtain ⟨m, rfl⟩ : ∃ m, k = m + 1 := ⟨k - 1, by omega⟩
      have e1 : ((m + 1 : Nat) : Int) - 1 = (m : Int) := by omega
      have hfull : kdjFull ((q + 2 : Nat) : Int) (m + 1) = true := by simp [kdjFull]; omega
      have hr : (if highF (hi x) (m + 1 + 1 - (q + 2)) (q + 1) -. lowF (lo x) (m + 1 + 1 - (q + 2)) (q + 1)
            <. lit (1 / 1000000) then fl 100
          else (cl x (m + 1) -. lowF (lo x) (m + 1 + 1 - (q + 2)) (q + 1)) /.
            (highF (hi x) (m + 1 + 1 - (q + 2)) (q + 1) -. lowF (lo x) (m + 1 + 1 - (q + 2)) (q + 1)) *. fl 100)
          = rsvF ((q + 2 : Nat) : Int) x (m + 1) := by
        rw [rsvF, if_pos hfull]; rfl
      have sl : ∀ y : Nat → F, slice (tab (q + 2) (fun j => y (m + 1 + 1 - (q + 2) + j))) 1 ((q + 2 : Nat) : Int)
          = .ok (tab (q + 1) (fun j => y (m + 1 + 1 - (q + 2) + (1 + j)))) := fun y =>
        slice_tab (lo := 1) (fun j => y (m + 1 + 1 - (q + 2) + j)) (by omega) le_rfl
      simp only [hw, hw', tab_length, if_true, ok_bind, arrayLowest_tab, arrayHighest_tab, lowF_shift, highF_shift,
        hr, sl, e1]
      rw [setAt_filled (f := rsvF _ x) hk rfl, ok_bind, idx_filled (show m < m + 1 by omega) (by omega), ok_bind,
        setAt_filled (f := kF _ x) hk (by rw [kF, if_pos hfull]), ok_bind,
        idx_filled (show m < m + 1 by omega) (by omega), ok_bind,
        idx_filled (show m + 1 < m + 1 + 1 by omega) hk, ok_bind,
        setAt_filled (f := dF _ x) hk (by rw [dF, if_pos hfull]), ok_bind]
      rfl
    · have hw : ∀ y : Nat → F, kdjWin p y k = tab k y := fun y => by rw [kdjWin, if_neg (by omega)]
      have hw' : ∀ y : Nat → F, kdjWin p y (k + 1) = tab (k + 1) y := fun y => by
        rw [kdjWin, if_neg (by omega)]
      have hfull : kdjFull p k = false := by simp [kdjFull]; omega
      simp only [hw, hw', tab_succ, List.length_append, tab_length, List.length_singleton]
      rw [if_neg (by omega)]
      rw [setAt_filled (f := kF p x) hk (by cases k with
          | zero => rfl
          | succ m => rw [kF, if_neg (by simp [hfull])]), ok_bind,
        setAt_filled (f := dF p x) hk (by cases k with
          | zero => rfl
          | succ m => rw [dF, if_neg (by simp [hfull])]), ok_bind,
        setAt_filled (f := rsvF p x) hk (by rw [rsvF, if_neg (by simp [hfull])]), ok_bind]
      rfl

theorem KDJ.calculationKD_err {p : Int} {n : Nat} {e : Item F} {x : Nat → Candle F}
    (hx : e.candles = tab n x) (h : ¬ okKdj p n) : ∃ q, KDJ.calculationKD p e = .error q := by
  simp only [okKdj, not_or, not_not] at h
  obtain ⟨rfl, hn⟩ := h
  obtain ⟨m, rfl⟩ : ∃ m, n = m + 1 := ⟨n - 1, by omega⟩
  simp only [KDJ.calculationKD, GetOHLC_tab hx, ohlcOf, ok_bind, tab_length, mk_nat]
  refine err_bind ⟨.index, goFor_error_first (by omega) ?_⟩
  have z : (0 : Int) = ((0 : Nat) : Int) := rfl
  have e0 : ∀ y : Nat → F, idx (tab (m + 1) y) 0 = .ok (y 0) := fun y => idx_tab (i := 0) (by omega)
  have l1 : ∀ v : F, KDJ.arrayLowest [v] = .ok v := fun v => arrayLowest_tab 0 (fun _ => v)
  have l2 : ∀ v : F, KDJ.arrayHighest [v] = .ok v := fun v => arrayHighest_tab 0 (fun _ => v)
  have s0 : ∀ v : F, setAt (List.replicate (m + 1) (fl 0 : F)) 0 v = .ok ((List.replicate (m + 1) (fl 0 : F)).set 0 v) :=
    fun v => setAt_nat (i := 0) (by simp)
  simp only [e0, ok_bind, List.nil_append, List.length_singleton, Nat.cast_one, if_true, l1, l2, s0]
  rw [idx_neg (by omega)]
  rfl

theorem KDJ.makes (period : Int) :
    Makes (KDJ (F := F) period).toIndicator (okKdj period) (KDJ.out period) := by
  intro it n x hx
  refine ⟨it, rfl, fun h data => ?_, fun h data => ?_⟩
  · show KDJ.Calculation period it data = _
    simp only [KDJ.Calculation, KDJ.calculationKD_ok hx h, ok_bind, tab_length]
    rw [makeLoop_tab (fun i => (⟨ti x i, rsvF period x i, kF period x i, dF period x i, fl 0⟩ : KDJ.Data F))
      fun k hk => by simp only [candleTime_tab hx hk, idx_tab hk, ok_bind]; rfl]
    simp only [ok_bind, tab_length]
    rw [makeLoop_tab (fun i => fl 3 *. kF period x i -. fl 2 *. dF period x i)
      fun k hk => by simp only [idx_tab hk, ok_bind]; rfl]
    simp only [ok_bind]
    have e0 : tab n (fun i => (⟨ti x i, rsvF period x i, kF period x i, dF period x i, fl 0⟩ : KDJ.Data F))
        = tab n (fun i => if i < 0 then KDJ.out period x i
            else ⟨ti x i, rsvF period x i, kF period x i, dF period x i, fl 0⟩) := tab_ext fun i _ => by simp
    rw [goFor_acc₀ (S := fun k => tab n (fun i => if i < k then KDJ.out period x i
            else ⟨ti x i, rsvF period x i, kF period x i, dF period x i, fl 0⟩)) e0.symm]
    · exact congrArg Except.ok (tab_ext fun i hi => by simp [hi])
    · intro k hk
      simp only [idx_tab hk, ok_bind, Nat.lt_irrefl, if_false]
      rw [setAt_tab hk]
      refine congrArg Except.ok (tab_ext fun i _ => ?_)
      rcases lt_trichotomy i k with h | h | h
      · simp [h, show i ≠ k by omega, show i < k + 1 by omega]
      · subst h; simp; rfl
      · simp [show i ≠ k by omega, show ¬ i < k by omega, show ¬ i < k + 1 by omega]
  · exact err_bind (KDJ.calculationKD_err hx h)

/-! ## ReversalSignals -/

/-- Models trend/ReversalSignals.go `ReversalSignalsData`. -/
structure Rev.Data where
  time : Int
  side : Side
  deriving DecidableEq, Repr

/-- The two counters. -/
structure Rev.St where
  bull : Int
  bear : Int
  deriving DecidableEq, Repr

/-- The counters after a candle (trend/ReversalSignals.go:78-86); `con` is `close < closes[i-4]`. -/
def Rev.count (s : Rev.St) (con : Bool) : Rev.St := if con then ⟨s.bull + 1, 0⟩ else ⟨0, s.bear + 1⟩

/-- The side from the counters and the last four lows and highs (lines 88-102). -/
def Rev.decide (s : Rev.St) (l l1 l2 l3 h h1 h2 h3 : F) : Side :=
  let pbs := (l <=. l3 && l <=. l2) || (l1 <. l3 && l1 <=. l2)
  let side := if s.bull = 9 && pbs then Buy else Hold
  let pss := (h >=. h3 && h >=. h2) || (h1 >=. h3 && h1 >=. h2)
  if s.bear = 9 && pss then Sell else side

/-- Models trend/ReversalSignals.go:47-107 `Calculation`. -/
def Rev.Calculation (e : Item F) (_ : List Rev.Data) : Go (List Rev.Data) := do
  let o ← GetOHLC e
  let data ← mk e.candles.length (⟨zeroUnix, Buy⟩ : Rev.Data)
  let (_, data) ← goFor 0 e.candles.length ((⟨0, 0⟩ : Rev.St), data) fun i (s, data) => do
    let close ← idx o.close i
    let high ← idx o.high i
    let low ← idx o.low i
    let t ← candleTime e i
    if i < 4 then
      let data ← setAt data i ⟨t, Hold⟩
      pure (s, data)
    else
      let c4 ← idx o.close (i - 4)
      let s := Rev.count s (close <. c4)
      let l3 ← idx o.low (i - 3)
      let l2 ← idx o.low (i - 2)
      let l1 ← idx o.low (i - 1)
      let h3 ← idx o.high (i - 3)
      let h2 ← idx o.high (i - 2)
      let h1 ← idx o.high (i - 1)
      let data ← setAt data i ⟨t, Rev.decide s low l1 l2 l3 high h1 h2 h3⟩
      pure (s, data)
  pure data

/-- `ReversalSignals`. -/
abbrev Rev : Indicator F := { S := Item F, D := Rev.Data, source := pure, compute := Rev.Calculation }

/-- The counters before candle `k`. -/
def revF (x : Nat → Candle F) : Nat → Rev.St
  | 0 => ⟨0, 0⟩
  | k + 1 => if k < 4 then revF x k else Rev.count (revF x k) (cl x k <. cl x (k - 4))

/-- The record of one candle. -/
def Rev.out (x : Nat → Candle F) (i : Nat) : Rev.Data :=
  ⟨ti x i, if i < 4 then Hold else Rev.decide (revF x (i + 1)) (lo x i) (lo x (i - 1)) (lo x (i - 2)) (lo x (i - 3))
    (hi x i) (hi x (i - 1)) (hi x (i - 2)) (hi x (i - 3))⟩

theorem Rev.makes : Makes (Rev (F := F)) (fun _ => True) Rev.out := by
  intro it n x hx
  have hl : it.candles.length = n := by rw [hx, tab_length]
  refine ⟨it, rfl, fun _ data => ?_, fun h => absurd trivial h⟩
  show Rev.Calculation it data = _
  simp only [Rev.Calculation, GetOHLC_tab hx, ohlcOf, ok_bind, hl, mk_nat]
  rw [goFor_fill (s := (⟨0, 0⟩ : Rev.St)) (Rev.out x) (revF x) rfl]
  · rfl
  · intro k hk
    simp only [idx_tab hk, ok_bind, candleTime_tab hx hk]
    by_cases h : k < 4
    · rw [if_pos (by omega), setAt_filled hk (by rw [Rev.out, if_pos h])]
      simp only [revF, if_pos h]
      rfl
    · have e4 : (k : Int) - 4 = ((k - 4 : Nat) : Int) := by omega
      have e3 : (k : Int) - 3 = ((k - 3 : Nat) : Int) := by omega
      have e2 : (k : Int) - 2 = ((k - 2 : Nat) : Int) := by omega
      have e1 : (k : Int) - 1 = ((k - 1 : Nat) : Int) := by omega
      rw [if_neg (by omega)]
      simp only [e4, e3, e2, e1, idx_tab (show k - 4 < n by omega), idx_tab (show k - 3 < n by omega),
        idx_tab (show k - 2 < n by omega), idx_tab (show k - 1 < n by omega), ok_bind]
      rw [setAt_filled hk (by rw [Rev.out, if_neg h, revF, if_neg h])]
      simp only [revF, if_neg h]
      rfl

/-! ## StochasticHeat -/

/-- Models utils/types `MATypes` as far as `StochasticHeat` tells them apart. -/
inductive MAKind where
  | ema | sma | wma | other

/-- Models trend/StochasticHeat.go `StochasticHeatData`. -/
structure Heat.Data (F : Type) where
  time : Int
  fast : F
  slow : F
  deriving DecidableEq, Repr

/-- Models trend/StochasticHeat.go:166-180 `getStoch`. -/
def Heat.getStoch (kind : MAKind) (inc smoothFast : Int) (i : Int) (closing highs lows : List F) :
    Go (List F) := do
  let (k, _) ← Ta.Stochastic closing highs lows (i * inc)
  match kind with
  | .ema => Ta.Ema smoothFast k
  | .sma => Ta.Sma smoothFast k
  | .wma => Ta.Wma smoothFast k
  | .other => pure k

/-- The choice of average in trend/StochasticHeat.go:109-115. -/
def Heat.slowMA (kind : MAKind) (smoothSlow : Int) (fast : List F) : Go (List F) :=
  match kind with
  | .ema => Ta.Ema smoothSlow fast
  | .sma => Ta.Sma smoothSlow fast
  | _ => Ta.Wma smoothSlow fast

/-- Models trend/StochasticHeat.go:59-163 `Calculation`. The variables `stoch1 ... stoch28` are the entries
of one list; the sum is taken from the left as in the source. -/
def Heat.Calculation (inc smoothFast smoothSlow plot : Int) (kind : MAKind) (e : Item F) (data : List (Heat.Data F)) :
    Go (List (Heat.Data F)) := do
  let o ← GetOHLC e
  let stochs ← goFor 1 29 ([] : List (List F)) fun i acc => do
    let s ← Heat.getStoch kind inc smoothFast i o.close o.high o.low
    pure (acc ++ [s])
  let fast ← mk e.candles.length (fl 0 : F)
  let slow ← mk e.candles.length (fl 0 : F)
  let (fast, slow) ← goFor 0 e.candles.length (fast, slow) fun i (fast, _) => do
    let s0 ← idx stochs 0
    let v0 ← idx s0 i
    let total ← goFor 1 28 v0 fun j total => do
      let s ← idx stochs j
      let v ← idx s i
      pure (total +. v)
    let fast ← setAt fast i (((total /. fl plot) /. fl 100) *. fl plot)
    let slow ← Heat.slowMA kind smoothSlow fast
    pure (fast, slow)
  appendLoop e.candles.length data fun i => do
    let t ← candleTime e i
    let f ← idx fast i
    let s ← idx slow i
    pure ⟨t, f, s⟩

/-- The rule of trend/StochasticHeat.go:197-203. -/
def Heat.rule (prev v : Heat.Data F) : Side :=
  if prev.slow <. prev.fast && v.slow >. v.fast then Buy
  else if prev.slow >. prev.fast && v.slow <. v.fast then Sell
  else Hold

/-- Models trend/StochasticHeat.go:183-209 `AnalysisSide`. -/
def Heat.sides (e : Item F) (data : List (Heat.Data F)) : Go (List Side) :=
  sideLoop e.candles.length 1 data fun _ prev v => pure (Heat.rule prev v)

/-- `StochasticHeat`. -/
abbrev Heat (inc smoothFast smoothSlow plot : Int) (kind : MAKind) : Strat F :=
  { S := Item F, D := Heat.Data F, source := pure,
    compute := Heat.Calculation inc smoothFast smoothSlow plot kind, sides := Heat.sides }

/-- A smoothed stochastic at one candle. -/
def heatF (kind : MAKind) (inc smoothFast : Int) (x : Nat → Candle F) (i : Nat) : Nat → F :=
  let k := stochF ((i : Int) * inc).toNat (cl x) (hi x) (lo x)
  match kind with
  | .ema => emaF smoothFast k
  | .sma => smaF smoothFast.toNat k
  | .wma => wmaF smoothFast.toNat k
  | .other => k

/-- Sum of the first `k + 1` smoothed stochastics at candle `i`. -/
def heatSum (kind : MAKind) (inc smoothFast : Int) (x : Nat → Candle F) (i : Nat) : Nat → F
  | 0 => heatF kind inc smoothFast x 1 i
  | k + 1 => heatSum kind inc smoothFast x i k +. heatF kind inc smoothFast x (k + 2) i

/-- The fast line at one candle. -/
def heatFast (inc smoothFast plot : Int) (kind : MAKind) (x : Nat → Candle F) (i : Nat) : F :=
  ((heatSum kind inc smoothFast x i 27 /. fl plot) /. fl 100) *. fl plot

/-- The slow line at one candle. -/
def heatSlow (inc smoothFast smoothSlow plot : Int) (kind : MAKind) (x : Nat → Candle F) : Nat → F :=
  match kind with
  | .ema => emaF smoothSlow (heatFast inc smoothFast plot kind x)
  | .sma => smaF smoothSlow.toNat (heatFast inc smoothFast plot kind x)
  | _ => wmaF smoothSlow.toNat (heatFast inc smoothFast plot kind x)

/-- The record of one candle. -/
def Heat.out (inc smoothFast smoothSlow plot : Int) (kind : MAKind) (x : Nat → Candle F) (i : Nat) : Heat.Data F :=
  ⟨ti x i, heatFast inc smoothFast plot kind x i, heatSlow inc smoothFast smoothSlow plot kind x i⟩

/-- Where the fast average does not panic. -/
def okFast (kind : MAKind) (p : Int) (n : Nat) : Prop :=
  match kind with
  | .sma => okS p n
  | .wma => okWma p n
  | _ => True

/-- Where the slow average does not panic. -/
def okSlow (kind : MAKind) (p : Int) (n : Nat) : Prop :=
  match kind with
  | .ema => True
  | .sma => okS p n
  | _ => n = 0 ∨ okWma p n

theorem Heat.getStoch_ok {kind : MAKind} {inc smoothFast : Int} {n i : Nat} (hi1 : 1 ≤ i) (x : Nat → Candle F)
    (h1 : okW inc n) (h2 : okFast kind smoothFast n) :
    Heat.getStoch kind inc smoothFast i (tab n (cl x)) (tab n (hi x)) (tab n (lo x))
      = .ok (tab n (heatF kind inc smoothFast x i)) := by
  have hw : okW ((i : Int) * inc) n := by
    rcases h1 with h1 | ⟨rfl, rfl⟩
    · exact Or.inl (Int.mul_pos (by omega) h1)
    · exact Or.inr ⟨by simp, rfl⟩
  cases kind <;> simp only [Heat.getStoch, Stochastic_ok _ _ _ hw, ok_bind]
  · rw [Ema_tab]; rfl
  · rw [Sma_ok _ h2]; rfl
  · rw [Wma_ok _ h2]; rfl
  · rfl

theorem Heat.getStoch_err {kind : MAKind} {inc smoothFast : Int} {n : Nat} (x : Nat → Candle F)
    (h : ¬ (okW inc n ∧ okFast kind smoothFast n)) :
    ∃ e, Heat.getStoch kind inc smoothFast 1 (tab n (cl x)) (tab n (hi x)) (tab n (lo x)) = .error e := by
  by_cases h1 : okW inc n
  · have h2 : ¬ okFast kind smoothFast n := fun h2 => h ⟨h1, h2⟩
    cases kind <;> simp only [Heat.getStoch, Int.one_mul, Stochastic_ok _ _ _ h1, ok_bind]
    · exact absurd trivial h2
    · exact Sma_err _ h2
    · exact Wma_err _ h2
    · exact absurd trivial h2
  · unfold Heat.getStoch
    rw [Int.one_mul]
    exact err_bind (Stochastic_err _ _ _ h1)

theorem Heat.slowMA_ok {inc smoothFast smoothSlow plot : Int} {kind : MAKind} {n : Nat} (x : Nat → Candle F)
    (hn : 0 < n) (h : okSlow kind smoothSlow n) :
    Heat.slowMA kind smoothSlow (tab n (heatFast inc smoothFast plot kind x))
      = .ok (tab n (heatSlow inc smoothFast smoothSlow plot kind x)) := by
  cases kind <;> simp only [Heat.slowMA]
  · rw [Ema_tab]; rfl
  · rw [Sma_ok _ h]; rfl
  · rw [Wma_ok _ (h.resolve_left (by omega))]; rfl
  · rw [Wma_ok _ (h.resolve_left (by omega))]; rfl

theorem Heat.slowMA_total {smoothSlow : Int} {kind : MAKind} {n : Nat} (y : Nat → F)
    (hn : 0 < n) (h : okSlow kind smoothSlow n) : ∃ l, Heat.slowMA kind smoothSlow (tab n y) = .ok l := by
  cases kind <;> simp only [Heat.slowMA]
  · exact ⟨_, Ema_tab ..⟩
  · exact ⟨_, Sma_ok _ h⟩
  · exact ⟨_, Wma_ok _ (h.resolve_left (by omega))⟩
  · exact ⟨_, Wma_ok _ (h.resolve_left (by omega))⟩

theorem Heat.slowMA_err {smoothSlow : Int} {kind : MAKind} {n : Nat} (y : Nat → F)
    (h : ¬ okSlow kind smoothSlow n) : ∃ e, Heat.slowMA kind smoothSlow (tab n y) = .error e := by
  cases kind <;> simp only [Heat.slowMA]
  · exact absurd trivial h
  · exact Sma_err _ h
  · exact Wma_err _ fun h' => h (Or.inr h')
  · exact Wma_err _ fun h' => h (Or.inr h')

theorem Heat.stochs_ok {kind : MAKind} {inc smoothFast : Int} {n : Nat} (x : Nat → Candle F)
    (h1 : okW inc n) (h2 : okFast kind smoothFast n) :
    (goFor 1 29 ([] : List (List F)) fun i acc => do
      let s ← Heat.getStoch kind inc smoothFast i (tab n (cl x)) (tab n (hi x)) (tab n (lo x))
      pure (acc ++ [s])) = .ok (tab 28 fun j => tab n (heatF kind inc smoothFast x (j + 1))) := by
  rw [show (1 : Int) = ((1 : Nat) : Int) from rfl, show (29 : Int) = ((29 : Nat) : Int) from rfl,
    goFor_acc (s := ([] : List (List F))) (lo := 1) (hi := 29) (by omega)
      (fun k => tab (k - 1) fun j => tab n (heatF kind inc smoothFast x (j + 1))) rfl]
  intro k hk _
  obtain ⟨m, rfl⟩ : ∃ m, k = m + 1 := ⟨k - 1, by omega⟩
  rw [Heat.getStoch_ok hk x h1 h2, ok_bind, Nat.add_sub_cancel, Nat.add_sub_cancel, tab_succ]
  rfl

theorem Heat.total_ok (kind : MAKind) (inc smoothFast : Int) {n i : Nat} (x : Nat → Candle F) (hi : i < n) :
    (goFor 1 28 (heatF kind inc smoothFast x 1 i) fun j total => do
      let s ← idx (tab 28 fun j => tab n (heatF kind inc smoothFast x (j + 1))) j
      let v ← idx s (i : Int)
      pure (total +. v)) = .ok (heatSum kind inc smoothFast x i 27) := by
  rw [show (1 : Int) = ((1 : Nat) : Int) from rfl, show (28 : Int) = ((28 : Nat) : Int) from rfl,
    goFor_acc (s := heatF kind inc smoothFast x 1 i) (lo := 1) (hi := 28) (by omega)
      (fun k => heatSum kind inc smoothFast x i (k - 1)) rfl]
  intro k hk hk'
  obtain ⟨m, rfl⟩ : ∃ m, k = m + 1 := ⟨k - 1, by omega⟩
  rw [idx_tab hk', ok_bind, idx_tab hi, ok_bind]
  rfl

theorem Heat.appends (inc smoothFast smoothSlow plot : Int) (kind : MAKind) :
    Appends (Heat (F := F) inc smoothFast smoothSlow plot kind).toIndicator
      (fun n => (okW inc n ∧ okFast kind smoothFast n) ∧ okSlow kind smoothSlow n)
      (Heat.out inc smoothFast smoothSlow plot kind) := by
  intro it n x hx
  have hl : it.candles.length = n := by rw [hx, tab_length]
  have e0 : idx (tab 28 fun j => tab n (heatF kind inc smoothFast x (j + 1))) 0
      = .ok (tab n (heatF kind inc smoothFast x 1)) := idx_tab (i := 0) (by omega)
  refine ⟨it, rfl, fun ⟨⟨h1, h2⟩, h3⟩ data => ?_, fun h data => ?_⟩
  · show Heat.Calculation inc smoothFast smoothSlow plot kind it data = _
    simp only [Heat.Calculation, GetOHLC_tab hx, ohlcOf, ok_bind, Heat.stochs_ok x h1 h2, hl, mk_nat, e0]
    rcases Nat.eq_zero_or_pos n with rfl | hn
    · rw [goFor_empty (by omega), ok_bind]
      exact appendLoop_tab _ fun k hk => absurd hk (by omega)
    · rw [goFor_acc₀ (fun k => (filled n k (heatFast inc smoothFast plot kind x) (fl 0),
        if k = 0 then List.replicate n (fl 0) else
          match Heat.slowMA kind smoothSlow (filled n k (heatFast inc smoothFast plot kind x) (fl 0)) with
          | .ok l => l
          | .error _ => []))]
      · rw [if_neg (by omega)]
        simp only [ok_bind, filled_full, Heat.slowMA_ok x hn h3]
        exact appendLoop_tab _ fun k hk => by simp only [candleTime_tab hx hk, idx_tab hk, ok_bind]; rfl
      · rw [if_pos rfl, ← filled_zero]
      · intro k hk
        simp only [idx_tab hk, ok_bind, Heat.total_ok kind inc smoothFast x hk]
        rw [show ((heatSum kind inc smoothFast x k 27 /. fl plot) /. fl 100) *. fl plot
          = heatFast inc smoothFast plot kind x k from rfl,
          setAt_filled (f := heatFast inc smoothFast plot kind x) hk rfl, ok_bind, if_neg (by omega)]
        obtain ⟨l, hl⟩ := Heat.slowMA_total (kind := kind) (smoothSlow := smoothSlow)
          (fun i => if i < k + 1 then heatFast inc smoothFast plot kind x i else fl 0) hn h3
        have hl' : Heat.slowMA kind smoothSlow (filled n (k + 1) (heatFast inc smoothFast plot kind x) (fl 0))
            = .ok l := hl
        simp only [hl', ok_bind]
        rfl
  · show ∃ p, Heat.Calculation inc smoothFast smoothSlow plot kind it data = _
    simp only [Heat.Calculation, GetOHLC_tab hx, ohlcOf, ok_bind, hl, mk_nat]
    by_cases h1 : okW inc n ∧ okFast kind smoothFast n
    · have h3 : ¬ okSlow kind smoothSlow n := fun h3 => h ⟨h1, h3⟩
      have hn : 0 < n := by
        rcases Nat.eq_zero_or_pos n with rfl | hn
        · exact absurd (by cases kind <;> simp [okSlow, okS]) h3
        · exact hn
      simp only [Heat.stochs_ok x h1.1 h1.2, ok_bind, e0]
      obtain ⟨q, hq⟩ := Heat.slowMA_err (kind := kind) (smoothSlow := smoothSlow)
        (fun i => if i < 0 + 1 then heatFast inc smoothFast plot kind x i else fl 0) h3
      have hq' : Heat.slowMA kind smoothSlow (filled n (0 + 1) (heatFast inc smoothFast plot kind x) (fl 0))
          = .error q := hq
      refine err_bind ⟨q, goFor_error_first (by omega) ?_⟩
      have z : (0 : Int) = ((0 : Nat) : Int) := rfl
      simp only [z, idx_tab hn, ok_bind]
      rw [filled_zero n (heatFast inc smoothFast plot kind x)]
      have ht := Heat.total_ok kind inc smoothFast x hn
      simp only [ht, ok_bind]
      rw [show ((heatSum kind inc smoothFast x 0 27 /. fl plot) /. fl 100) *. fl plot
          = heatFast inc smoothFast plot kind x 0 from rfl,
        setAt_filled (f := heatFast inc smoothFast plot kind x) hn rfl, ok_bind]
      exact (congrArg (fun g => g >>= _) hq').trans rfl
    · obtain ⟨q, hq⟩ := Heat.getStoch_err (F := F) x h1
      refine err_bind ⟨q, goFor_error_first (by omega) ?_⟩
      rw [hq]; rfl

/-! ## BreakoutProbability -/

/-- Models trend/BreakoutProbability.go `BreakoutProbabilityDataItem`. -/
structure BP.Line (F : Type) where
  price : F
  per : F
  up : Bool
  deriving DecidableEq, Repr

/-- Models trend/BreakoutProbability.go `BreakoutProbabilityData`. -/
structure BP.Data (F : Type) where
  time : Int
  list : List (BP.Line F)
  win : F
  loss : F
  deriving DecidableEq, Repr

/-- Row `r` (0 to 4) of `total` (four counters) and of `vals` (four percentages). -/
structure BP.Row (F : Type) where
  ghh : Int
  gll : Int
  rhh : Int
  rll : Int
  v0 : F
  v1 : F
  v2 : F
  v3 : F
  deriving DecidableEq, Repr

/-- The matrices `total` (7 x 4) and `vals` (5 x 4): rows 0-4, `total[5][0..1]`, `total[6][0..1]`.
Simplification: all indices into the two matrices are constants in range, so no index can fail; the cells
that are never used are left out. -/
structure BP.St (F : Type) where
  rows : List (BP.Row F)
  green : Int
  red : Int
  win : Int
  loss : Int
  deriving DecidableEq, Repr

/-- Models trend/BreakoutProbability.go:219-246 `score` on one row. -/
def BP.score (x : F) (green red : Bool) (gtotal rtotal : Int) (high highPrev low lowPrev : F) (r : BP.Row F) :
    BP.Row F :=
  let hh := high >. highPrev +. x
  let ll := low >. lowPrev -. x
  { ghh := if green && hh then r.ghh + 1 else r.ghh
    gll := if green && ll then r.gll + 1 else r.gll
    rhh := if red && hh then r.rhh + 1 else r.rhh
    rll := if red && ll then r.rll + 1 else r.rll
    v0 := if green && hh then (fl (r.ghh + 1) /. fl gtotal) *. fl 100 else r.v0
    v1 := if green && ll then (fl (r.gll + 1) /. fl gtotal) *. fl 100 else r.v1
    v2 := if red && hh then (fl (r.rhh + 1) /. fl rtotal) *. fl 100 else r.v2
    v3 := if red && ll then (fl (r.rll + 1) /. fl rtotal) *. fl 100 else r.v3 }

/-- Models trend/BreakoutProbability.go:200-216 `backtest`. -/
def BP.backtest (s : BP.St F) (high highPrev low v : F) : BP.St F :=
  if v ==. highPrev then
    if high >=. v then { s with win := s.win + 1 } else { s with loss := s.loss + 1 }
  else
    if low <=. v then { s with win := s.win + 1 } else { s with loss := s.loss + 1 }

/-- The two list entries of line `r` (trend/BreakoutProbability.go:147-164), `none` when they stay zero. -/
def BP.line (green red : Bool) (h l step : F) (i : Nat) (r : BP.Row F) : Option (BP.Line F × BP.Line F) :=
  if (green && min r.v0 r.v1 >. fl 0) || (red && min r.v2 r.v3 >. fl 0) then
    some (⟨h +. (step *. fl i), if green then r.v0 else r.v2, true⟩,
      ⟨l -. (step *. fl i), if green then r.v1 else r.v3, false⟩)
  else none

/-- The ten entries of `List`: upper lines at 0-4, lower lines at 5-9. -/
def BP.lines (nLines : Int) (green red : Bool) (h l step : F) (rows : List (BP.Row F)) : List (BP.Line F) :=
  let z : BP.Line F := ⟨fl 0, fl 0, false⟩
  let e := fun i : Nat => if (i : Int) < nLines then (rows[i]?).bind (BP.line green red h l step i) else none
  (tab 5 fun i => match e i with | some p => p.1 | none => z) ++
    (tab 5 fun i => match e i with | some p => p.2 | none => z)

/-- `NumberOfLines` as the constructor stores it (trend/BreakoutProbability.go:42-47). -/
def BP.clamp (n : Int) : Int := if n < 1 then 1 else if n > 5 then 5 else n

/-- The columns read at one index. -/
structure BP.Bar (F : Type) where
  time : Int
  op : F
  hi : F
  lo : F
  cl : F
  deriving DecidableEq, Repr

/-- The columns at index `i`. -/
def BP.barAt (o : OHLC F) (i : Int) : Go (BP.Bar F) := do
  let t ← idx o.timeUnix i
  let h ← idx o.high i
  let l ← idx o.low i
  let c ← idx o.close i
  let p ← idx o.open_ i
  pure ⟨t, p, h, l, c⟩

/-- One iteration of the loop of trend/BreakoutProbability.go:112-187, from the prices of candle `i-1` and
candle `i`. -/
def BP.step (percentageStep : F) (nLines : Int) (s : BP.St F) (p c : BP.Bar F) : BP.St F × BP.Data F :=
  let h := c.hi
  let l := c.lo
  let step := c.cl *. (percentageStep /. fl 100)
  let green := p.cl >. p.op
  let red := p.cl <. p.op
  let g := s.green + (if green then 1 else 0)
  let r := s.red + (if red then 1 else 0)
  let xs := [fl 0, step, step *. fl 2, step *. fl 3, step *. fl 4]
  let rows := List.zipWith (fun x => BP.score x green red g r h p.hi l p.lo) xs s.rows
  let first := rows.headD ⟨0, 0, 0, 0, fl 0, fl 0, fl 0, fl 0⟩
  let list := BP.lines nLines green red h l step rows
  let s : BP.St F := { s with rows := rows, green := g, red := r }
  let s := if green then
      (if max first.v0 first.v1 ==. first.v0 then BP.backtest s h p.hi l p.hi
        else BP.backtest s h p.hi l p.lo)
    else
      (if max first.v2 first.v3 ==. first.v2 then BP.backtest s h p.hi l p.hi
        else BP.backtest s h p.hi l p.lo)
  (s, ⟨c.time, list, fl s.win, fl s.loss⟩)

/-- The matrices before the loop. -/
def BP.init : BP.St F := ⟨List.replicate 5 ⟨0, 0, 0, 0, fl 0, fl 0, fl 0, fl 0⟩, 0, 0, 0, 0⟩

/-- The zero record. -/
def BP.zero : BP.Data F := ⟨zeroUnix, [], fl 0, fl 0⟩

/-- Models trend/BreakoutProbability.go:85-190 `Calculation`. The columns have equal length, so reading all
five of them at `i-1` and `i` fails only when a read of the source fails. -/
def BP.Calculation (percentageStep : F) (nLines : Int) (o : OHLC F) (_ : List (BP.Data F)) : Go (List (BP.Data F)) := do
  let data ← mk o.close.length BP.zero
  let (_, data) ← goFor 1 o.close.length ((BP.init : BP.St F), data) fun i (s, data) => do
    let c ← BP.barAt o i
    let p ← BP.barAt o (i - 1)
    let (s, d) := BP.step percentageStep (BP.clamp nLines) s p c
    let data ← setAt data i d
    pure (s, data)
  pure data

/-- `BreakoutProbability`. -/
abbrev BP (percentageStep : F) (nLines : Int) : Indicator F :=
  { S := OHLC F, D := BP.Data F, source := GetOHLC, compute := BP.Calculation percentageStep nLines }

/-- The columns at candle `i`. -/
def BP.bar (x : Nat → Candle F) (i : Nat) : BP.Bar F := ⟨ti x i, op x i, hi x i, lo x i, cl x i⟩

/-- The matrices after candle `k`. -/
def bpF (percentageStep : F) (nLines : Int) (x : Nat → Candle F) : Nat → BP.St F
  | 0 => BP.init
  | k + 1 => (BP.step percentageStep (BP.clamp nLines) (bpF percentageStep nLines x k) (BP.bar x k) (BP.bar x (k + 1))).1

/-- The record of one candle. -/
def BP.out (percentageStep : F) (nLines : Int) (x : Nat → Candle F) : Nat → BP.Data F
  | 0 => BP.zero
  | k + 1 => (BP.step percentageStep (BP.clamp nLines) (bpF percentageStep nLines x k) (BP.bar x k) (BP.bar x (k + 1))).2

theorem BP.makes (percentageStep : F) (nLines : Int) :
    Makes (BP percentageStep nLines) (fun _ => True) (BP.out percentageStep nLines) := by
  intro it n x hx
  refine ⟨_, GetOHLC_tab hx, fun _ data => ?_, fun h => absurd trivial h⟩
  show BP.Calculation percentageStep nLines _ data = _
  have hc : ∀ k : Nat, k < n → BP.barAt (ohlcOf n x) (k : Int) = .ok (BP.bar x k) := by
    intro k hk
    simp only [BP.barAt, ohlcOf, idx_tab hk, ok_bind]; rfl
  have hlen : (ohlcOf n x).close.length = n := tab_length ..
  simp only [BP.Calculation, hlen, mk_nat, ok_bind]
  rcases Nat.eq_zero_or_pos n with rfl | hn
  · rw [goFor_empty (by omega)]; rfl
  · rw [replicate_filled n 1 (BP.out percentageStep nLines x) BP.zero (fun j hj => by
      obtain rfl : j = 0 := by omega
      rfl), show (1 : Int) = ((1 : Nat) : Int) from rfl]
    rw [goFor_fill_cont (s := (BP.init : BP.St F)) (BP.out percentageStep nLines x)
      (fun k => bpF percentageStep nLines x (k - 1)) rfl (by omega)]
    · rfl
    · intro k hk hk'
      obtain ⟨m, rfl⟩ : ∃ m, k = m + 1 := ⟨k - 1, by omega⟩
      have e : ((m + 1 : Nat) : Int) - ((1 : Nat) : Int) = (m : Int) := by omega
      simp only [e, hc _ hk', hc m (by omega), ok_bind]
      rw [setAt_filled hk']
      all_goals rfl

end Verif.Ind
