import Verif.Ind.Main
import Verif.Props.Answers
import Verif.Props.Small

/-!
# The table the program prints (C109)

End to end: from the candles to the printed rows, through `RunStrategies` and eleven strategies.
-/

namespace Verif.Props
open Verif Verif.Klines Verif.Ta Verif.Ind GoFloat

variable {F : Type} [GoMath F]

theorem mainStrat_strategies {a : Nat} (h : a < 11) : Strategies (mainStrat (F := F) a) := by
  rcases a with _ | _ | _ | _ | _ | _ | _ | _ | _ | _ | _ | a
  · exact .zeroFirst (.macd _ _ _)
  · exact .zeroFirst (.kdj _)
  · exact .zeroFirst (.apo _ _)
  · exact .zeroFirst (.cci _ _)
  · exact .zeroFirst (.rsi _)
  · exact .zeroFirst .awesome
  · exact .zeroFirst (.chaikin _ _)
  · exact .zeroFirst (.ichimoku _ _ _)
  · exact .zeroFirst (.ppo _ _ _)
  · exact .zeroFirst (.stoch _)
  · exact .zeroFirst (.williams _)
  · omega

theorem mainStrat_zeroFirst {a : Nat} (h : a < 11) : ZeroFirst (mainStrat (F := F) a) := by
  rcases a with _ | _ | _ | _ | _ | _ | _ | _ | _ | _ | _ | a
  · exact .macd _ _ _
  · exact .kdj _
  · exact .apo _ _
  · exact .cci _ _
  · exact .rsi _
  · exact .awesome
  · exact .chaikin _ _
  · exact .ichimoku _ _ _
  · exact .ppo _ _ _
  · exact .stoch _
  · exact .williams _
  · omega

theorem mainStrat_answers {a : Nat} (h : a < 11) :
    DefaultAnswers (mainStrat (F := F) a).toIndicator (fun n => a = 4 → n ≠ 14) := by
  have e : ∀ {I : Indicator F} {p q : Nat → Prop}, DefaultAnswers I p → (∀ n, p n ↔ q n) → DefaultAnswers I q :=
    fun h hpq => (funext fun n => propext (hpq n)) ▸ h
  rcases a with _ | _ | _ | _ | _ | _ | _ | _ | _ | _ | _ | a
  · exact e .macd (by simp)
  · exact e .kdj (by simp)
  · exact e .absolutePriceOscillator (by simp)
  · exact e .cci (by simp)
  · exact e .rsi (by simp)
  · exact e .awesomeOscillator (by simp)
  · exact e .chaikinOscillator (by simp)
  · exact e .ichimokuCloud (by simp)
  · exact e .percentagePriceOscillator (by simp)
  · exact e .stochasticOscillator (by simp)
  · exact e .williamsR (by simp)
  · omega

theorem mainStrat_new {a : Nat} (h : a < 11) (it : Item F) : ∃ e, (mainStrat a).toIndicator.new it = .ok e := by
  rcases a with _ | _ | _ | _ | _ | _ | _ | _ | _ | _ | _ | a
  all_goals exact ⟨_, rfl⟩

theorem mainStrat_signals {a : Nat} (h : a < 11) (it : Item F) :
    (∃ s, (mainStrat a).signals it = .ok s) ↔ (a = 4 → it.candles.length ≠ 14) :=
  (C40_signals_exist (mainStrat_strategies h) it).trans (C77_defaults (mainStrat_answers h) it)

theorem mainHeap_ok (it : Item F) :
    ∃ h, mainHeap it = .ok h ∧ ∀ a, a < 11 → ∃ e, (mainStrat a).toIndicator.new it = .ok e ∧ h a = some e := by
  obtain ⟨h, e, hp⟩ := goFor_inv (n := 11) (s := fun _ => none)
    (body := fun a (h : Heap (mainStrat (F := F))) => do
      let e ← (mainStrat a.toNat).toIndicator.new it
      pure (Function.update h a.toNat (some e)))
    (fun k h => ∀ a, a < k → ∃ e, (mainStrat a).toIndicator.new it = .ok e ∧ h a = some e)
    (fun a ha => absurd ha (Nat.not_lt_zero _))
    (by
      intro k h hk hp
      obtain ⟨e, he⟩ := mainStrat_new hk it
      refine ⟨Function.update h k (some e), ?_, fun a ha => ?_⟩
      · simp only [Int.toNat_natCast, he, ok_bind, pure_eq_ok]
      · by_cases hak : a = k
        · subst hak
          exact ⟨e, he, Function.update_self ..⟩
        · rw [Function.update_of_ne hak]
          exact hp a (by omega))
  exact ⟨h, e, hp⟩

omit [GoMath F] in
theorem sideOf_new {I : Nat → Strat F} {names : Nat → String} {h : Heap I} {a : Nat} {e : Obj (I a).toIndicator}
    {it : Item F} (he : (I a).toIndicator.new it = .ok e) (ha : h a = some e) :
    sideOf I names h (some a) = ((I a).signals it >>= fun s => pure ⟨names a, s⟩) := by
  simp only [sideOf, callSide, ha, Strat.signals, he, ok_bind]
  cases (I a).AnalysisSide e <;> rfl

/-- One cell of the table. -/
def cell (name : String) (s : Side) : String := name ++ ":" ++ getColorSide s

omit [GoMath F] in
theorem mainRow_ok {n i : Nat} (hi : i < n) {m : Nat} {nm : Nat → String} {sig : Nat → Nat → Side} (v : Candle F) :
    mainRow (tab m fun a => ⟨nm a, tab n (sig a)⟩) i v =
      .ok ⟨i + 1, v.timeUnix, v.close, "\t".intercalate (tab m fun a => cell (nm a) (sig a i))⟩ := by
  unfold mainRow
  rw [tab_length, goFor_acc₀ (S := fun k => tab k fun a => cell (nm a) (sig a i)) (by simp)]
  · rfl
  · intro k hk
    simp only [idx_tab hk, ok_bind, idx_tab hi, pure_eq_ok, tab_succ, cell]

theorem main_ok (it : Item F) (hn : it.candles.length ≠ 14) :
    ∃ sig : Nat → Nat → Side, (∀ a, a < 11 → (mainStrat a).signals it = .ok (tab it.candles.length (sig a))) ∧
      ∀ x, it.candles = tab it.candles.length x → Ind.main it = .ok (tab it.candles.length fun i =>
        ⟨i + 1, (x i).timeUnix, (x i).close,
          "\t".intercalate (tab 11 fun a => cell (mainNames[a]?.getD "") (sig a i))⟩) := by
  have hs : ∀ a, ∃ f : Nat → Side, a < 11 → (mainStrat a).signals it = .ok (tab it.candles.length f) := by
    intro a
    by_cases ha : a < 11
    · obtain ⟨s, hs⟩ := (mainStrat_signals ha it).mpr fun _ => hn
      have hl := C40_one_side_per_candle (mainStrat_strategies ha) hs
      refine ⟨fun i => s[i]?.getD 0, fun _ => ?_⟩
      rw [hs]
      exact congrArg _ (eq_tab_of_forall hl fun i hi => by simp [List.getElem?_eq_getElem (hl ▸ hi)])
    · exact ⟨fun _ => 0, fun h => absurd h ha⟩
  choose sig hsig using hs
  refine ⟨sig, hsig, fun x hx => ?_⟩
  obtain ⟨h, hh, hp⟩ := mainHeap_ok it
  obtain ⟨h', hr, -⟩ := C56_run_in_order mainStrat (fun a => mainNames[a]?.getD "") h
    ((List.range 11).map some) (fun a => ⟨mainNames[a]?.getD "", tab it.candles.length (sig a)⟩) (by
      intro i p hip
      have hi : i < 11 := by
        by_contra hc
        rw [List.getElem?_eq_none (by simpa using hc)] at hip
        cases hip
      rw [List.getElem?_map, List.getElem?_range hi] at hip
      cases hip
      obtain ⟨e, he, ha⟩ := hp i hi
      rw [sideOf_new he ha, hsig i hi]
      rfl)
  unfold Ind.main
  rw [hh, ok_bind]
  have hr' : RunStrategies mainStrat (fun a => mainNames[a]?.getD "") h
      ((List.range (mainStrats (F := F)).length).map some) = _ := hr
  rw [hr', ok_bind]
  simp only [List.length_map, List.length_range]
  rw [goFor_acc₀ (S := fun k => tab k fun i =>
    ⟨i + 1, (x i).timeUnix, (x i).close, "\t".intercalate (tab 11 fun a => cell (mainNames[a]?.getD "") (sig a i))⟩) (by simp)]
  intro k hk
  have hc : idx it.candles (k : Int) = .ok (x k) := by rw [hx]; exact idx_tab hk
  simp only [hc, ok_bind, mainRow_ok hk, pure_eq_ok]
  rw [tab_succ k]

/-- **C109.** Whatever the candles contain, the program prints its table, unless there are exactly fourteen candles; then
it panics (in `Rsi`). -/
theorem C109_prints_iff (it : Item F) : (∃ rows, Ind.main it = .ok rows) ↔ it.candles.length ≠ 14 := by
  constructor
  · rintro ⟨rows, hr⟩
    obtain ⟨h, hh, hp⟩ := mainHeap_ok it
    unfold Ind.main at hr
    rw [hh, ok_bind] at hr
    cases hrun : RunStrategies mainStrat (fun a => mainNames[a]?.getD "") h
      ((List.range (mainStrats (F := F)).length).map some) with
    | error p => rw [hrun] at hr; cases hr
    | ok r =>
      obtain ⟨r, -, hs⟩ := (C56_results _ _ _ _ _ _ hrun).2 4 (some 4) rfl
      obtain ⟨e, he, ha⟩ := hp 4 (by norm_num)
      rw [sideOf_new he ha] at hs
      cases hsig : (mainStrat (F := F) 4).signals it with
      | error p => rw [hsig] at hs; cases hs
      | ok s => exact (mainStrat_signals (by norm_num) it).mp ⟨s, hsig⟩ rfl
  · intro hn
    obtain ⟨sig, -, h⟩ := main_ok it hn
    obtain ⟨x, hx⟩ := candles_tab it
    exact ⟨_, h x hx⟩

/-- **C109.** The table has one row per candle in order, numbered from 1, with the candle's time and close and the eleven
signals of that candle, each under its own name. -/
theorem C109_rows {it : Item F} {rows : List (Row F)} (h : Ind.main it = .ok rows) :
    ∃ sig : Nat → Nat → Side, (∀ a, a < 11 → (mainStrat a).signals it = .ok (tab it.candles.length (sig a))) ∧
      rows.length = it.candles.length ∧ ∀ (i : Nat) (c : Candle F), it.candles[i]? = some c → rows[i]? = some
        ⟨i + 1, c.timeUnix, c.close, "\t".intercalate (mainNames.mapIdx fun a name => cell name (sig a i))⟩ := by
  obtain ⟨sig, hsig, hm⟩ := main_ok it ((C109_prints_iff it).mp ⟨rows, h⟩)
  obtain ⟨x, hx⟩ := candles_tab it
  rw [hm x hx] at h
  cases h
  refine ⟨sig, hsig, tab_length .., fun i c hc => ?_⟩
  have hi : i < it.candles.length := by
    by_contra hn
    rw [List.getElem?_eq_none (by omega)] at hc
    cases hc
  rw [hx, tab_getElem?_lt hi] at hc
  cases hc
  rw [tab_getElem?_lt hi]
  rfl

/-- Fifteen one-minute candles give fifteen rows. -/
example : ∃ rows, Ind.main (minutes 15) = .ok rows ∧ rows.length = 15 := by
  obtain ⟨rows, h⟩ := (C109_prints_iff (minutes 15)).mpr (by simp [minutes])
  obtain ⟨-, -, hl, -⟩ := C109_rows h
  exact ⟨rows, h, by simpa [minutes] using hl⟩

/-- **C109.** The first row says BUY eleven times, whatever the market: the strategies leave the first signal at the zero
value of the type (C40). -/
theorem C109_first_row {it : Item F} {rows : List (Row F)} (h : Ind.main it = .ok rows) (hc : it.candles ≠ []) :
    rows[0]?.map (·.cells) = some ("\t".intercalate (mainNames.map fun name => name ++ ":\x1b[32mBUY\x1b[0m")) := by
  obtain ⟨sig, hsig, -, hr⟩ := C109_rows h
  have hn : 0 < it.candles.length := List.length_pos_iff.mpr hc
  have h0 : ∀ a, a < 11 → sig a 0 = Buy := by
    intro a ha
    have := C40_first_candle_is_buy (mainStrat_zeroFirst ha) (hsig a ha) hc
    rw [tab_getElem?_lt hn] at this
    exact Option.some.inj this
  rw [hr 0 _ (List.getElem?_eq_getElem hn)]
  simp [mainNames, h0, cell, getColorSide, Side.name, green, reset, Buy]

example : ∃ rows, Ind.main (minutes 15) = .ok rows ∧ (minutes 15).candles ≠ [] := by
  obtain ⟨rows, h⟩ := (C109_prints_iff (minutes 15)).mpr (by simp [minutes])
  exact ⟨rows, h, by simp [minutes]⟩

end Verif.Props
