import Verif.Klines.Convert
import Verif.Klines.Ranges64

/-!
# Upscaling candles with Go's durations and float64

`ConvertToNewInterval` of `Verif/Klines/Convert.lean` once more, with the saturating `Time.Sub`, the float64 of
`Duration.Seconds` and the date ranges of `Verif/Klines/Ranges64.lean`.
-/

set_option linter.unusedSectionVars false

namespace Verif.Klines
open Verif GoFloat XF

/-- `int64(d.Seconds())`: package time computes `float64(d/Second) + float64(d%Second)/1e9` (utils/klines/kline.go:114 and
117 convert it back). -/
def seconds64 (d : Int) : Int :=
  truncF ((fl (d.tdiv nsec) : B64) +. (fl (d.tmod nsec) : B64) /. fl 1000000000).val

/-- Models utils/klines/kline.go:25-142 `ConvertToNewInterval` with the machine arithmetic of durations. -/
def ConvertToNewInterval64 {F : Type} [GoFloat F] (now : Int) (e : Option (Item F)) (newInterval : Int) :
    Go (Except KErr (Item F)) :=
  match e with
  | none => pure (.error .nilKline)
  | some e =>
    if e.interval ≤ 0 then pure (.error .invalidInterval)
    else if newInterval ≤ 0 then pure (.error .invalidInterval)
    else if newInterval ≤ e.interval then pure (.error .canOnlyUpscale)
    else do
      let md ← goMod newInterval e.interval
      if md ≠ 0 then pure (.error .wholeNumberScaling)
      else do
        let first ← idx e.candles 0
        let start := ofUnix first.timeUnix
        let last ← idx e.candles (e.candles.length - 1)
        let stop := ofUnix last.timeUnix + e.interval
        let window := subSat stop start
        let expected ← goDiv window e.interval
        if expected ≠ e.candles.length then pure (.error .notPadded)
        else do
          let ratio ← goDiv newInterval e.interval
          let m ← goDiv e.candles.length ratio
          let candles ← mk m (none : Option (Candle F))
          if (candles.length : Int) = 0 then pure (.error .insufficientData)
          else do
            let h ← CandleDateRanges64 now start stop newInterval 100000
            match h with
            | .error _ => .error (.explicit "CalculateCandleDateRanges")
            | .ok h =>
              let (candles, _) ← assignRanges h.ranges (candles, 0)
              let (candles, _, _) ← goFor 0 e.candles.length (candles, (0 : Int), false)
                (convertStep e.candles (seconds64 e.interval) (seconds64 newInterval) ratio)
              match allSlots candles with
              | none => .error .nilDeref
              | some cs => pure (.ok { exchange := e.exchange, interval := newInterval, symbol := "",
                                       code := "", candles := cs })

theorem seconds64_eq {d : Int} (h0 : 0 ≤ d) (hd : d < 2 ^ 63) (h : nsec ∣ d ∨ d < 2 ^ 24 * nsec) :
    seconds64 d = wholeSeconds d := by
  have hn : nsec = 1000000000 := rfl
  rw [seconds64, wholeSeconds]
  obtain ⟨s, hs⟩ : ∃ s, s = d.tdiv nsec := ⟨_, rfl⟩
  obtain ⟨f, hf⟩ : ∃ f, f = d.tmod nsec := ⟨_, rfl⟩
  have hdec : d = nsec * s + f := by rw [hs, hf]; exact (Int.mul_tdiv_add_tmod d nsec).symm
  rw [← hs, ← hf]
  have hs0 : 0 ≤ s := by rw [hs]; exact Int.tdiv_nonneg h0 (by rw [hn]; norm_num)
  have hf0 : 0 ≤ f := by rw [hf]; exact Int.tmod_nonneg _ h0
  have hf1 : f < nsec := by rw [hf]; exact Int.tmod_lt_of_pos _ (by rw [hn]; norm_num)
  have hs9 : d = 1000000000 * s + f := by rw [hdec, hn]
  rw [hn] at hf1
  have h9 : (fl 1000000000 : B64).val = .fin 1000000000 := by
    simpa using B64.val_fl 1000000000 (by norm_num)
  have hsv : (fl s : B64).val = .fin s := B64.val_fl s (by rw [abs_of_nonneg hs0]; omega)
  have hfv : (fl f : B64).val = .fin f := B64.val_fl f (by rw [abs_of_nonneg hf0]; omega)
  have hdiv := B64.val_div hfv h9 (by norm_num)
  rcases h with h | h
  · have : f = 0 := by rw [hf]; exact Int.tmod_eq_zero_of_dvd h
    subst this
    rw [show ((0 : Int) : ℚ) / 1000000000 = 0 by norm_num, round64_rep srep_zero] at hdiv
    rw [B64.val_add hsv hdiv, add_zero, round64_rep (srep_int (by rw [abs_of_nonneg hs0]; omega)),
      truncF_nonneg (by exact_mod_cast hs0), Int.floor_intCast]
  · have hs24 : s < 2 ^ 24 := by omega
    have hf0' : (0 : ℚ) ≤ f := by exact_mod_cast hf0
    have hf1' : (f : ℚ) ≤ 999999999 := by
      have : f ≤ 999999999 := by omega
      exact_mod_cast this
    have hs0' : (0 : ℚ) ≤ s := by exact_mod_cast hs0
    have hs24' : (s : ℚ) + 1 ≤ 2 ^ 24 := by
      have : s + 1 ≤ 2 ^ 24 := by omega
      exact_mod_cast this
    have hq0 : (0 : ℚ) ≤ f / 1000000000 := by positivity
    have hq1 : (f : ℚ) / 1000000000 ≤ 999999999 / 1000000000 := by
      rw [div_le_div_iff_of_pos_right (by norm_num)]; exact hf1'
    obtain ⟨r, hr, -, hre⟩ := round64_error (q := (f : ℚ) / 1000000000) (k := 0) (by norm_num) (by norm_num)
      (by rw [abs_of_nonneg hq0]; norm_num; linarith)
    have hr0 : 0 ≤ r := by
      obtain ⟨r', e', h1, _⟩ := round64_between (q := (f : ℚ) / 1000000000) srep_zero
        (srep_int (n := 1) (by norm_num)) hq0 (by norm_num; linarith)
      rw [hr] at e'
      cases e'
      exact h1
    have hr1 : r ≤ 999999999 / 1000000000 + 2 ^ (-54 : ℤ) := by
      have := (abs_le.mp hre).2
      rw [zero_sub] at this
      linarith
    rw [hr] at hdiv
    rw [B64.val_add hsv hdiv]
    have e54 : (2 : ℚ) ^ (-54 : ℤ) = 1 / 18014398509481984 := by norm_num
    rw [e54] at hr1
    have hs1 : SRep ((s : ℚ) + 1) := by exact_mod_cast srep_int (n := s + 1) (by rw [abs_of_nonneg (by omega)]; omega)
    obtain ⟨t, ht, ht0, -⟩ := round64_between (q := (s : ℚ) + r) (srep_int (n := s) (by rw [abs_of_nonneg hs0]; omega))
      hs1 (by linarith) (by linarith)
    have hy : SRep ((s : ℚ) + 1 - 1 / 536870912) := by
      have := srep_scaled (n := (s + 1) * 536870912 - 1) (e := -29) (by rw [abs_of_nonneg (by omega)]; omega) (by norm_num)
        (by norm_num)
      have e : (((s + 1) * 536870912 - 1 : ℤ) : ℚ) * 2 ^ (-29 : ℤ) = (s : ℚ) + 1 - 1 / 536870912 := by
        push_cast
        rw [show (2 : ℚ) ^ (-29 : ℤ) = 1 / 536870912 by norm_num]
        ring
      rwa [e] at this
    have hnear := roundS_nearest ((s : ℚ) + r) hy
    have htS : t = roundS ((s : ℚ) + r) := by
      rw [round64] at ht
      split at ht
      · cases ht; rfl
      · split at ht <;> cases ht
    rw [← htS] at hnear
    have hlt : t < s + 1 := by
      by_contra hge
      have hge := not_lt.mp hge
      rw [abs_of_nonneg (by linarith)] at hnear
      rcases abs_cases ((s : ℚ) + 1 - 1 / 536870912 - (s + r)) with ⟨h1, _⟩ | ⟨h1, _⟩
      · rw [h1] at hnear; linarith
      · rw [h1] at hnear; linarith
    rw [ht, truncF_nonneg (hs0'.trans ht0)]
    exact Int.floor_eq_iff.mpr ⟨ht0, hlt⟩

theorem mem_of_idx {α : Type} {l : List α} {i : Int} {a : α} (h : idx l i = .ok a) : a ∈ l := by
  rw [idx] at h
  split at h
  · split at h
    · next h' => cases h; exact List.mem_of_getElem? h'
    · cases h
  · cases h

/-- Durations whose `Seconds` are exact after truncation. -/
def ExactSeconds (d : Int) : Prop := nsec ∣ d ∨ d < 2 ^ 24 * nsec

theorem convert64_eq {F : Type} [GoFloat F] (now : Int) (e : Option (Item F)) (ni : Int)
    (hspan : ∀ it, e = some it → ∀ a ∈ it.candles, ∀ b ∈ it.candles, |a.timeUnix - b.timeUnix| ≤ 2 ^ 32)
    (hold : ∀ it, e = some it → ExactSeconds it.interval) (hnew : ExactSeconds ni) (hms : 1000000 ≤ ni)
    (hni : ni ≤ 2 ^ 31 * nsec) :
    ConvertToNewInterval64 now e ni = ConvertToNewInterval now e ni := by
  cases e with
  | none => rfl
  | some e =>
    specialize hspan e rfl
    specialize hold e rfl
    have hn : nsec = 1000000000 := rfl
    rw [ConvertToNewInterval64, ConvertToNewInterval]
    simp only
    split
    · rfl
    · split
      · rfl
      · split
        · rfl
        · next h1 h2 h3 =>
          rw [seconds64_eq (d := e.interval) (by omega) (by rw [hn] at hni; omega) hold,
            seconds64_eq (d := ni) (by omega) (by rw [hn] at hni; omega) hnew]
          refine bind_congr fun md => ?_
          split
          · rfl
          · cases hf : idx e.candles 0 with
            | error p => rfl
            | ok first =>
              cases hl : idx e.candles (e.candles.length - 1) with
              | error p => rfl
              | ok last =>
                have hspan := hspan last (mem_of_idx hl) first (mem_of_idx hf)
                have hspan := abs_le.mp hspan
                have hsub : subSat (ofUnix last.timeUnix + e.interval) (ofUnix first.timeUnix) =
                    ofUnix last.timeUnix + e.interval - ofUnix first.timeUnix := by
                  rw [subSat, ofUnix, ofUnix]
                  rw [hn] at hni ⊢
                  omega
                have hr : CandleDateRanges64 now (ofUnix first.timeUnix) (ofUnix last.timeUnix + e.interval) ni 100000 =
                    CalculateCandleDateRanges now (ofUnix first.timeUnix) (ofUnix last.timeUnix + e.interval) ni 100000 := by
                  have n1 := roundT_near (show 0 < ni by omega) (ofUnix first.timeUnix)
                  have n2 := roundT_near (show 0 < ni by omega) (ofUnix last.timeUnix + e.interval)
                  refine ranges64_eq _ _ _ _ 100000 (by norm_num) ?_ ?_
                  all_goals
                    generalize roundT ni (ofUnix first.timeUnix) = a at *
                    generalize roundT ni (ofUnix last.timeUnix + e.interval) = b at *
                    rw [ofUnix] at n1 n2
                    rw [hn] at hni n1 n2
                    omega
                simp only [ok_bind, hsub, hr]
                rfl

end Verif.Klines
