import Verif.Ind.Lifecycle
import Verif.Klines.Ranges
import Verif.Props.Lines
import Verif.Ind.Params

/-!
# Clearing objects, the free CCI function, counting candles (C95, C96, C97)
-/

set_option linter.unusedSectionVars false

namespace Verif.Props
open Verif Verif.Klines Verif.Ta Verif.Ind GoFloat

/-! ## C95 -/

section c95
variable {F : Type} [GoFloat F]

theorem clearable_ok {D : Type} {compute : Item F → List D → Go (List D)} {vals} (h : Clearable F D compute vals)
    (it : Item F) : ∃ d, d.length = it.candles.length ∧ ∀ data, compute it data = .ok d := by
  obtain ⟨x, hx⟩ := candles_tab it
  cases h with
  | reversal =>
    obtain ⟨s, hs, h1, -⟩ := Rev.makes it _ x hx
    cases hs
    exact ⟨_, by rw [tab_length], h1 trivial⟩
  | volumeOsc a b =>
    obtain ⟨s, hs, h1, -⟩ := VolOsc.makes a b it _ x hx
    cases hs
    exact ⟨_, by rw [tab_length], h1 trivial⟩

theorem clearable_vals {D : Type} {compute : Item F → List D → Go (List D)} {vals} (h : Clearable F D compute vals)
    (d : List D) : ∃ v, vals d = .ok v := by
  cases h with
  | reversal => exact ⟨_, rfl⟩
  | volumeOsc a b =>
    rcases d with _ | ⟨a, l⟩
    · exact ⟨_, rfl⟩
    · obtain ⟨f, hf⟩ := exists_tab (a :: l) (by simp)
      rw [hf]
      exact ⟨_, valuesLoop_tab _ _ _⟩

/-- What a call must answer on an object whose source is `it`, with records `d` and values `v`. -/
def replyOf {D : Type} (d : List D) (v : List F) : Call → Reply F D
  | .clear => .done
  | .calculation => .done
  | .getData => .records d
  | .getValues => .values v

theorem run_live {D : Type} {compute : Item F → List D → Go (List D)} {vals} (it : Item F) (d : List D) (v : List F)
    (hd : ∀ data, compute it data = .ok d) (hv : vals d = .ok v) (cs : List Call) (hc : Call.clear ∉ cs) :
    ∀ e : Kept F D, e.kline = some it → (e.data = [] ∨ e.data = d) →
      ∃ e', e.run compute vals cs = (cs.map fun c => .ok (replyOf d v c), e') ∧ e'.kline = some it ∧
        (e'.data = [] ∨ e'.data = d) := by
  induction cs with
  | nil => intro e h1 h2; exact ⟨e, rfl, h1, h2⟩
  | cons c cs ih =>
    intro e h1 h2
    have hcalc : e.Calculation compute = .ok ⟨some it, d⟩ := by
      rw [Kept.Calculation, h1]; simp only [hd, ok_bind, pure_eq_ok, h1]
    have hens : e.ensure compute = .ok ⟨some it, d⟩ := by
      rw [Kept.ensure]
      split
      · exact hcalc
      · next h =>
        rcases h2 with h2 | h2
        · rw [h2] at h; simp at h
        · obtain ⟨k, a⟩ := e
          simp only at h1 h2
          rw [h1, h2]; rfl
    have key : e.call compute vals c = .ok (replyOf d v c, ⟨some it, d⟩) := by
      cases c with
      | clear => exact absurd List.mem_cons_self hc
      | calculation => simp only [Kept.call, hcalc, ok_bind, pure_eq_ok, replyOf]
      | getData => simp only [Kept.call, hens, ok_bind, pure_eq_ok, replyOf]
      | getValues => simp only [Kept.call, hens, hv, ok_bind, pure_eq_ok, replyOf]
    obtain ⟨e', h3, h4, h5⟩ := ih (fun h => hc (List.mem_cons_of_mem _ h)) ⟨some it, d⟩ rfl (.inr rfl)
    refine ⟨e', ?_, h4, h5⟩
    rw [Kept.run, key]
    simp only [h3, List.map_cons]

theorem run_dead {D : Type} {compute : Item F → List D → Go (List D)} {vals} (cs : List Call) :
    Kept.run compute vals (⟨none, []⟩ : Kept F D) cs =
      (cs.map fun c => if c = .clear then .ok .done else .error .nilDeref, ⟨none, []⟩) := by
  induction cs with
  | nil => rfl
  | cons c cs ih => cases c <;> simp [Kept.run, Kept.call, Kept.ensure, Kept.Calculation, ih]

theorem run_append {D : Type} {compute : Item F → List D → Go (List D)} {vals} (as bs : List Call) :
    ∀ e : Kept F D, Kept.run compute vals e (as ++ bs) =
      ((e.run compute vals as).1 ++ ((e.run compute vals as).2.run compute vals bs).1,
        ((e.run compute vals as).2.run compute vals bs).2) := by
  induction as with
  | nil => intro e; rfl
  | cons c cs ih =>
    intro e
    rw [List.cons_append, Kept.run, Kept.run]
    cases e.call compute vals c with
    | error p => simp only [ih, List.cons_append]
    | ok r => simp only [ih, List.cons_append]

/-- **C95.** A `ReversalSignals` or `VolumeOscillator` object over any candles, under any history of calls: there are
records `d`, one per candle, and values `v` such that every call before the first `Clear` succeeds and answers from them;
after it every call except `Clear` panics with a nil dereference, however often the caller tries. -/
theorem C95_clear_is_final {D : Type} {compute : Item F → List D → Go (List D)} {vals} (h : Clearable F D compute vals)
    (it : Item F) :
    ∃ (d : List D) (v : List F), d.length = it.candles.length ∧ compute it [] = .ok d ∧ vals d = .ok v ∧
      (∀ before : List Call, .clear ∉ before →
        (Kept.run compute vals ⟨some it, []⟩ before).1 = before.map fun c => .ok (replyOf d v c)) ∧
      (∀ before after : List Call, .clear ∉ before →
        (Kept.run compute vals ⟨some it, []⟩ (before ++ .clear :: after)).1 =
          (before.map fun c => .ok (replyOf d v c)) ++ .ok .done ::
            after.map fun c => if c = .clear then .ok .done else .error .nilDeref) := by
  obtain ⟨d, hl, hd⟩ := clearable_ok h it
  obtain ⟨v, hv⟩ := clearable_vals h d
  refine ⟨d, v, hl, hd [], hv, fun before hb => ?_, fun before after hb => ?_⟩
  · obtain ⟨e', he, -, -⟩ := run_live it d v hd hv before hb ⟨some it, []⟩ rfl (.inl rfl)
    rw [he]
  · obtain ⟨e', he, -, -⟩ := run_live it d v hd hv before hb ⟨some it, []⟩ rfl (.inl rfl)
    rw [run_append, he]
    simp only [Kept.run, Kept.call, pure_eq_ok, run_dead]

/-- Two readings of a series of two candles, `Clear`, and a third reading that panics. -/
example : (Kept.run (VolOsc.Calculation 2 3) (valuesLoop Rec.value) ⟨some (barItem (flatBars [(1 : ℚ), 2])), []⟩
      [.getData, .getValues, .clear, .getData]).1.map (fun r => match r with
        | .ok (.records d) => some d.length | .ok (.values v) => some v.length | .ok .done => some 0 | .error _ => none)
      = [some 2, some 2, some 0, none] := by
  decide +kernel

end c95

/-! ## C96 -/

section c96
variable {F : Type} [GoFloat F]

/-- The places `ComputeCCI` reads when it comes to candle `i` are there. -/
def CciReads (matp md : List F) (i : Nat) : Prop :=
  ∃ d, md[i]? = some d ∧ ((d ==. fl 0) = false → i < matp.length)

/-- **C96.** `ComputeCCI` panics exactly when the deviations are shorter than the closes, or the averages end before a
candle whose deviation is not 0. Otherwise it returns one value per close: 0 where the deviation is 0, else
`(close - average) / (0.015 * deviation)`. -/
theorem C96_compute_cci (close matp md : List F) :
    (ComputeCCI close matp md = .error .index ↔ ∃ i < close.length, ¬ CciReads matp md i) ∧
    ((∀ i < close.length, CciReads matp md i) → ∃ r, ComputeCCI close matp md = .ok r ∧ r.length = close.length ∧
      ∀ (i : Nat) (c : F), close[i]? = some c → ∃ d, md[i]? = some d ∧ ((d ==. fl 0) = true → r[i]? = some (fl 0)) ∧
        ((d ==. fl 0) = false → ∃ m, matp[i]? = some m ∧ r[i]? = some ((c -. m) /. (lit (15 / 1000) *. d)))) := by
  obtain ⟨x, hx⟩ := exists_tabF close
  have body : ∀ (cci : List F) (i : Nat), i < close.length → cci.length = close.length →
      ((do
        let d ← idx md (i : Int)
        if d ==. fl 0 then setAt cci i (fl 0)
        else
          let c ← idx close (i : Int)
          let m ← idx matp (i : Int)
          setAt cci i ((c -. m) /. (lit (15 / 1000) *. d)) : Go (List F)) =
        match md[i]?, matp[i]? with
        | none, _ => .error .index
        | some d, m => if d ==. fl 0 then .ok (cci.set i (fl 0)) else
          match m with
          | none => .error .index
          | some m => .ok (cci.set i ((x i -. m) /. (lit (15 / 1000) *. d)))) := by
    intro cci i hi hl
    rw [idx_nat, idx_nat, idx_nat, setAt_nat (by omega)]
    have hc : close[i]? = some (x i) := by rw [hx, tab_getElem?_lt hi]
    rw [hc]
    cases md[i]? with
    | none => rfl
    | some d =>
      simp only [ok_bind]
      split
      · rfl
      · cases matp[i]? with
        | none => rfl
        | some m => simp only [ok_bind, setAt_nat (show i < cci.length by omega)]
  have good : (∀ i < close.length, CciReads matp md i) → ∃ r, ComputeCCI close matp md = .ok r ∧ r.length = close.length ∧
      ∀ (i : Nat) (c : F), close[i]? = some c → ∃ d, md[i]? = some d ∧ ((d ==. fl 0) = true → r[i]? = some (fl 0)) ∧
        ((d ==. fl 0) = false → ∃ m, matp[i]? = some m ∧ r[i]? = some ((c -. m) /. (lit (15 / 1000) *. d))) := by
    intro hg
    let f : Nat → F := fun i => if (md[i]?.getD (fl 0)) ==. fl 0 then fl 0
      else (x i -. matp[i]?.getD (fl 0)) /. (lit (15 / 1000) *. md[i]?.getD (fl 0))
    have hrun : ComputeCCI close matp md = .ok (tab close.length f) := by
      unfold ComputeCCI
      simp only [mk_nat, ok_bind]
      refine goFor_fill₀ f fun k hk => ?_
      rw [body _ k hk (filled_length _ _ _ _)]
      obtain ⟨d, hd, hm⟩ := hg k hk
      rw [hd]
      simp only
      split
      · next h0 => rw [← setAt_nat (by rw [filled_length]; exact hk), setAt_filled hk]; simp [f, hd, h0]
      · next h0 =>
        obtain ⟨m, hm⟩ : ∃ m, matp[k]? = some m := ⟨_, List.getElem?_eq_getElem (hm (by simpa using h0))⟩
        rw [hm]
        simp only
        rw [← setAt_nat (by rw [filled_length]; exact hk), setAt_filled hk]; simp [f, hd, hm, h0]
    refine ⟨_, hrun, tab_length _ _, fun i c hc => ?_⟩
    have hi : i < close.length := (List.getElem?_eq_some_iff.mp hc).1
    obtain ⟨d, hd, hm⟩ := hg i hi
    have hcx : c = x i := by rw [hx, tab_getElem?_lt hi] at hc; exact (Option.some.inj hc).symm
    subst hcx
    refine ⟨d, hd, fun h0 => ?_, fun h0 => ?_⟩
    · rw [tab_getElem?_lt hi]; simp [f, hd, h0]
    · obtain ⟨m, hm⟩ : ∃ m, matp[i]? = some m := ⟨_, List.getElem?_eq_getElem (hm h0)⟩
      refine ⟨m, hm, ?_⟩
      rw [tab_getElem?_lt hi]; simp [f, hd, hm, h0]
  refine ⟨⟨fun he => ?_, fun ⟨i, hi, hb⟩ => ?_⟩, good⟩
  · by_contra hc
    push Not at hc
    obtain ⟨r, hr, -⟩ := good hc
    rw [hr] at he
    cases he
  · classical
    let P : Nat → Prop := fun i => i < close.length ∧ ¬ CciReads matp md i
    have hP : ∃ i, P i := ⟨i, hi, hb⟩
    have hm := Nat.find_spec hP
    have hmin : ∀ j, j < Nat.find hP → CciReads matp md j := fun j hj => by
      by_contra h
      exact Nat.find_min hP hj ⟨by omega, h⟩
    unfold ComputeCCI
    simp only [mk_nat, ok_bind]
    unfold goFor
    refine goForFrom_inv_error (Nat.find hP) (by have := hm.1; omega) (fun _ s => s.length = close.length) (by simp) ?_ ?_
    · intro k s hk hs
      rw [zero_add, body s k (by have := hm.1; omega) hs]
      obtain ⟨d, hd, hm⟩ := hmin k hk
      rw [hd]
      simp only
      split
      · exact ⟨_, rfl, by simp [hs]⟩
      · next h0 =>
        obtain ⟨m, hm⟩ : ∃ m, matp[k]? = some m := ⟨_, List.getElem?_eq_getElem (hm (by simpa using h0))⟩
        rw [hm]
        exact ⟨_, rfl, by simp [hs]⟩
    · intro s hs
      rw [zero_add, body s _ hm.1 hs]
      have hb := hm.2
      rcases hd : md[Nat.find hP]? with _ | d
      · rfl
      · rw [CciReads, hd] at hb
        push Not at hb
        obtain ⟨h1, h2⟩ := hb d rfl
        simp only [h1, Bool.false_eq_true, if_false, List.getElem?_eq_none h2]

/-- **C96.** The method and the free function agree: `AiCoinCCI` is `ComputeCCI` of the closes, their moving average and
their mean deviation, for every period; its parameter `factor` has no influence. -/
theorem C96_same_cci (close : List F) (period : Int) (factor : F) :
    ∃ matp md, MA close period = .ok matp ∧ Dev close period = .ok md ∧
      AiCoinCCI close period factor = ComputeCCI close matp md := by
  obtain ⟨x, hx⟩ := exists_tabF close
  have h : ∃ matp md, MA close period = .ok matp ∧ Dev close period = .ok md := by
    rw [hx]
    by_cases hp : 0 ≤ period
    · have h1 := MA_tab period.toNat close.length x
      have h2 := Dev_tab period.toNat close.length x
      rw [Int.toNat_of_nonneg hp] at h1 h2
      exact ⟨_, _, h1, h2⟩
    · refine ⟨List.replicate close.length (fl 0), List.replicate close.length (fl 0), ?_, ?_⟩
      · simp only [MA, tab_length, mk_nat, ok_bind, show period ≤ 0 by omega, true_or, if_true, pure_eq_ok]
      · simp only [Dev, tab_length, mk_nat, ok_bind, show period ≤ 0 by omega, true_or, if_true, pure_eq_ok]
  obtain ⟨matp, md, h1, h2⟩ := h
  refine ⟨matp, md, h1, h2, ?_⟩
  rw [AiCoinCCI, h1, ok_bind, h2, ok_bind]
  rfl

/-- A flat first candle (deviation 0) and a second with close 12, average 9 and deviation 2. -/
example : ComputeCCI (fins [5, 12] : List (XF ℚ)) (fins [5, 9]) (fins [0, 2]) = .ok (fins [0, 100]) ∧
    ComputeCCI (fins [5, 12] : List (XF ℚ)) (fins [5]) (fins [0, 2]) = .error .index := by
  decide +kernel

end c96

/-! ## C97 -/

/-- **C97.** `TotalCandlesPerInterval` never panics. For a non-positive interval it is 0; for a positive one and
`start <= end` it is the number of whole intervals that fit, and with start and end exchanged the opposite number. -/
theorem C97_total_candles (start stop interval : Int) :
    (interval ≤ 0 → TotalCandlesPerInterval start stop interval = .ok 0) ∧
    (0 < interval → start ≤ stop → ∃ n : Nat, TotalCandlesPerInterval start stop interval = .ok n ∧
      start + n * interval ≤ stop ∧ stop < start + (n + 1) * interval) ∧
    (∀ n, TotalCandlesPerInterval start stop interval = .ok n → TotalCandlesPerInterval stop start interval = .ok (-n)) := by
  unfold TotalCandlesPerInterval goDiv
  refine ⟨fun h => by rw [if_pos h]; rfl, fun h hs => ?_, fun n hn => ?_⟩
  · rw [if_neg (by omega), if_neg (by omega)]
    have h1 : (stop - start).tdiv interval = (stop - start) / interval := Int.tdiv_eq_ediv_of_nonneg (by omega)
    refine ⟨((stop - start) / interval).toNat, ?_, ?_, ?_⟩
    · rw [h1, Int.toNat_of_nonneg (Int.ediv_nonneg (by omega) h.le)]
    · rw [Int.toNat_of_nonneg (Int.ediv_nonneg (by omega) h.le)]
      have := Int.ediv_mul_le (stop - start) (show interval ≠ 0 by omega)
      omega
    · rw [Int.toNat_of_nonneg (Int.ediv_nonneg (by omega) h.le)]
      have := Int.lt_ediv_add_one_mul_self (stop - start) h
      omega
  · by_cases h : interval ≤ 0
    · rw [if_pos h] at hn ⊢
      cases hn
      rfl
    · rw [if_neg h, if_neg (by omega)] at hn ⊢
      cases hn
      rw [← Int.neg_tdiv, Int.neg_sub]

example : TotalCandlesPerInterval 5 27 10 = .ok 2 ∧ TotalCandlesPerInterval 27 5 10 = .ok (-2) := by decide

end Verif.Props
