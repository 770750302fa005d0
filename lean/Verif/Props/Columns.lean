import Verif.Ind.Columns
import Verif.Go.Loop
import Verif.Props.Thresholds

/-!
# C113: objects built from price columns
-/

namespace Verif.Props
open Verif Verif.Klines Verif.Ta Verif.Ind GoFloat

variable {F : Type} [GoFloat F]

/-! ## Columns of one length -/

/-- All seven columns have `n` entries. -/
def Rectangular (o : OHLC F) (n : Nat) : Prop :=
  o.open_.length = n ∧ o.high.length = n ∧ o.low.length = n ∧ o.close.length = n ∧ o.volume.length = n ∧
    o.bullMarket.length = n ∧ o.timeUnix.length = n

/-- The candle at position `i` of the columns. -/
def candleAt (o : OHLC F) (i : Nat) : Candle F :=
  { Candle.zero (o.timeUnix.getD i 0) with
    open_ := o.open_.getD i (fl 0), high := o.high.getD i (fl 0), low := o.low.getD i (fl 0),
    close := o.close.getD i (fl 0), volume := o.volume.getD i (fl 0), isBull := o.bullMarket.getD i false }

theorem tab_getD {α : Type} (l : List α) (z : α) : tab l.length (fun i => l.getD i z) = l := by
  apply List.ext_getElem?
  intro i
  by_cases h : i < l.length
  · simp [h]
  · simp [h]

theorem ohlcOf_candleAt {o : OHLC F} {n : Nat} (h : Rectangular o n) : ohlcOf n (candleAt o) = o := by
  obtain ⟨h1, h2, h3, h4, h5, h6, h7⟩ := h
  obtain ⟨a, b, c, d, e, f, g⟩ := o
  simp only at h1 h2 h3 h4 h5 h6 h7
  simp only [ohlcOf, OHLC.mk.injEq]
  refine ⟨?_, ?_, ?_, ?_, ?_, ?_, ?_⟩
  · exact h1 ▸ tab_getD a _
  · exact h2 ▸ tab_getD b _
  · exact h3 ▸ tab_getD c _
  · exact h4 ▸ tab_getD d _
  · exact h5 ▸ tab_getD e _
  · exact h6 ▸ tab_getD f _
  · exact h7 ▸ tab_getD g _

/-- **C113 (columns are candles).** Columns of one length are the columns of a candle series of that length, and every object
made from them answers as the object made from that series: what the other theorems say about `NewX(item, ...)` holds for
`NewXOHLC(columns, ...)`. For `SuperTrend` the `hl2` argument has to be the `HL2` of the series. -/
theorem C113_columns_are_candles {o : OHLC F} {n : Nat} (h : Rectangular o n) :
    ∃ it : Item F, it.candles.length = n ∧ GetOHLC it = .ok o ∧
      (∀ I : Indicator F, ∀ s, I.source it = .ok s → I.data it = I.columnData s) ∧
      (∀ p, (DEMA p).data it = (DEMA p).columnData o) ∧
      (∀ p q, (ADX p q).data it = (ADX p q).columnData o) ∧
      (∀ p q b, (LRC p q b).data it = (LRC p q b).columnData o) ∧
      (∀ p q, (BP p q).data it = (BP p q).columnData o) ∧
      (∀ p q, (XO p q).signals it = (XO p q).columnSignals o) ∧
      (∀ p q, (UT p q).signals it = (UT p q).columnSignals o) ∧
      (∀ p q f, (PPST p q f).signals it = (PPST p q f).columnSignals o) ∧
      (∀ p a b c d, (Vegas p a b c d).signals it = (Vegas p a b c d).columnSignals o) ∧
      ∀ hl2, HL2 it = .ok hl2 → ∀ p m b, (ST p m b).signals it = (ST p m b).columnSignals (o, hl2) := by
  let it : Item F := { exchange := "", interval := 0, symbol := "", code := "", candles := tab n (candleAt o) }
  have hg : GetOHLC it = .ok o := by rw [GetOHLC_tab (it := it) rfl, ohlcOf_candleAt h]
  refine ⟨it, tab_length _ _, hg, fun I s hs => Indicator.data_of_source hs, fun p => Indicator.data_of_source hg,
    fun p q => Indicator.data_of_source hg, fun p q b => Indicator.data_of_source hg, fun p q => Indicator.data_of_source hg,
    fun p q => Strat.signals_of_source (I := XO p q) hg, fun p q => Strat.signals_of_source (I := UT p q) hg,
    fun p q f => Strat.signals_of_source (I := PPST p q f) hg,
    fun p a b c d => Strat.signals_of_source (I := Vegas p a b c d) hg, fun hl2 hh p m b => ?_⟩
  refine Strat.signals_of_source (I := ST p m b) ?_
  simp only [hg, hh, ok_bind]; rfl

/-! ## Columns of different lengths -/

theorem makeLoop_error {D : Type} {n m : Nat} {z : D} {rec : Int → Go D} {e : Panic} (f : Nat → D) (hm : m < n)
    (h : ∀ k, k < m → rec (k : Int) = .ok (f k)) (he : rec (m : Int) = .error e) : makeLoop n n z rec = .error e := by
  unfold makeLoop
  rw [mk_nat, ok_bind]
  refine goFor_fill_error₀ f hm (fun k hk => ?_) ?_
  · rw [h k hk, ok_bind, setAt_filled (by omega) rfl]
  · rw [he]; rfl

/-- A fill loop that reads the time column first. -/
theorem makeLoop_times {D : Type} {n : Nat} {z : D} (times : List Int) (g : Int → Nat → D) {rec : Int → Go D}
    (h : ∀ k, k < n → rec (k : Int) = (do let t ← idx times (k : Int); pure (g t k))) :
    makeLoop n n z rec = if n ≤ times.length then .ok (tab n fun i => g (times.getD i 0) i) else .error .index := by
  have hk : ∀ k, k < n → k < times.length → rec (k : Int) = .ok (g (times.getD k 0) k) := by
    intro k hk hk'
    have : idx times (k : Int) = .ok (times.getD k 0) := by
      conv_lhs => rw [← tab_getD times 0]
      exact idx_tab hk'
    rw [h k hk, this]; rfl
  split_ifs with hn
  · exact makeLoop_tab _ fun k hk' => hk k hk' (by omega)
  · refine makeLoop_error (fun i => g (times.getD i 0) i) (m := times.length) (by omega)
      (fun k hk' => hk k (by omega) hk') ?_
    rw [h _ (by omega), idx_ge (by omega)]; rfl

/-- The record of `Dema`, `TraderXO` and `EMAVegas` computed from columns. -/
theorem dema_columns (p : Int) (o : OHLC F) (x : Nat → F) (hx : o.close = tab o.close.length x) :
    (DEMA p).columnData o = if o.close.length ≤ o.timeUnix.length
      then .ok (tab o.close.length fun i => ⟨o.timeUnix.getD i 0, demaF p x i⟩) else .error .index := by
  rw [Indicator.columnData_eq]
  show DEMA.Calculation p o [] = _
  generalize hn : o.close.length = n at hx
  simp only [DEMA.Calculation, hx, Dema_tab, ok_bind, tab_length, makeRecsO]
  refine makeLoop_times (n := n) o.timeUnix (fun t i => (⟨t, demaF p x i⟩ : Rec F)) fun k hk => ?_
  cases idx o.timeUnix (k : Int) <;> simp [idx_tab hk]

theorem xo_columns (p q : Int) (o : OHLC F) (x : Nat → F) (hx : o.close = tab o.close.length x) :
    (XO p q).toIndicator.columnData o = if o.close.length ≤ o.timeUnix.length
      then .ok (tab o.close.length fun i => ⟨o.timeUnix.getD i 0, emaF p x i, emaF q x i⟩) else .error .index := by
  rw [Indicator.columnData_eq]
  show XO.Calculation p q o [] = _
  generalize hn : o.close.length = n at hx
  simp only [XO.Calculation, hx, Ema_tab, ok_bind, tab_length]
  refine makeLoop_times (n := n) o.timeUnix (fun t i => (⟨t, emaF p x i, emaF q x i⟩ : XO.Data F)) fun k hk => ?_
  cases idx o.timeUnix (k : Int) <;> simp [idx_tab hk]

theorem vegas_columns (p a b c d : Int) (o : OHLC F) (x : Nat → F) (hx : o.close = tab o.close.length x) :
    (Vegas p a b c d).toIndicator.columnData o = if o.close.length ≤ o.timeUnix.length
      then .ok (tab o.close.length fun i => ⟨o.timeUnix.getD i 0, emaF p x i, emaF a x i, emaF b x i, emaF c x i, emaF d x i⟩)
      else .error .index := by
  rw [Indicator.columnData_eq]
  show Vegas.Calculation p a b c d o [] = _
  generalize hn : o.close.length = n at hx
  simp only [Vegas.Calculation, hx, Ema_tab, ok_bind, tab_length]
  refine makeLoop_times (n := n) o.timeUnix (fun t i => (⟨t, emaF p x i, emaF a x i, emaF b x i, emaF c x i, emaF d x i⟩ : Vegas.Data F)) fun k hk => ?_
  cases idx o.timeUnix (k : Int) <;> simp [idx_tab hk]

/-- **C113 (what `Dema`, `TraderXO` and `EMAVegas` read).** Made from any columns, they return data exactly when there is a
time for every close, whatever the other columns hold; a missing time column is an index panic. The records of two sets of
columns with the same closes and times are the same. -/
theorem C113_closes_and_times (o : OHLC F) :
    (∀ p, (∃ d, (DEMA p).columnData o = .ok d) ↔ o.close.length ≤ o.timeUnix.length) ∧
    (∀ p q, (∃ d, (XO p q).toIndicator.columnData o = .ok d) ↔ o.close.length ≤ o.timeUnix.length) ∧
    (∀ p a b c d, (∃ r, (Vegas p a b c d).toIndicator.columnData o = .ok r) ↔ o.close.length ≤ o.timeUnix.length) ∧
    ∀ o' : OHLC F, o'.close = o.close → o'.timeUnix = o.timeUnix →
      (∀ p, (DEMA p).columnData o' = (DEMA p).columnData o) ∧
      (∀ p q, (XO p q).columnSignals o' = (XO p q).columnSignals o) ∧
      ∀ p a b c d, (Vegas p a b c d).toIndicator.columnData o' = (Vegas p a b c d).toIndicator.columnData o := by
  have hx : o.close = tab o.close.length (fun i => o.close.getD i (fl 0)) := (tab_getD _ _).symm
  refine ⟨fun p => ?_, fun p q => ?_, fun p a b c d => ?_, fun o' hc ht => ?_⟩
  · rw [dema_columns p o _ hx]; split_ifs with h <;> simp [h]
  · rw [xo_columns p q o _ hx]; split_ifs with h <;> simp [h]
  · rw [vegas_columns p a b c d o _ hx]; split_ifs with h <;> simp [h]
  · have hx' : o'.close = tab o'.close.length (fun i => o.close.getD i (fl 0)) := by rw [hc]; exact hx
    refine ⟨fun p => ?_, fun p q => ?_, fun p a b c d => ?_⟩
    · rw [dema_columns p o _ hx, dema_columns p o' _ hx', hc, ht]
    · have : (XO p q).compute o' [] = (XO p q).compute o [] := by
        rw [← Indicator.columnData_eq (XO p q).toIndicator, ← Indicator.columnData_eq (XO p q).toIndicator,
          xo_columns p q o _ hx, xo_columns p q o' _ hx', hc, ht]
      rw [Strat.columnSignals_eq, Strat.columnSignals_eq, this]; rfl
    · rw [vegas_columns p a b c d o _ hx, vegas_columns p a b c d o' _ hx', hc, ht]

/-! ## EMAVegas and the bull column -/

theorem goFor_vegas {D : Type} (data : List D) (k : Nat) (h11 : 11 ≤ k) (hk : k < data.length) (P : D → D → Bool × Bool → Bool × Bool) :
    ∃ q, (goFor ((k : Int) - 10) (k : Int) (false, false) fun j s => do
      let d ← idx data j
      let dp ← idx data (j - 1)
      pure (P d dp s) : Go (Bool × Bool)) = .ok q := by
  have e1 : (k : Int) - 10 = ((k - 10 : Nat) : Int) := by omega
  rw [e1]
  obtain ⟨q, hq, -⟩ := goFor_inv' (lo := k - 10) (hi := k) (s := (false, false)) (by omega) (fun _ _ => True) trivial
    (body := fun j s => do
      let d ← idx data j
      let dp ← idx data (j - 1)
      pure (P d dp s)) (by
    intro j s hj hj' _
    obtain ⟨d, hd⟩ : ∃ d, idx data (j : Int) = .ok d := ⟨_, idx_of_getElem? (List.getElem?_eq_getElem (by omega))⟩
    obtain ⟨dp, hdp⟩ : ∃ d, idx data ((j : Int) - 1) = .ok d := by
      rw [show (j : Int) - 1 = ((j - 1 : Nat) : Int) by omega]
      exact ⟨_, idx_of_getElem? (List.getElem?_eq_getElem (by omega))⟩
    exact ⟨_, by simp only [hd, hdp, ok_bind]; rfl, trivial⟩)
  exact ⟨q, hq⟩

theorem setAt_ok {α : Type} {xs ys : List α} {i : Nat} {v : α} (h : setAt xs (i : Int) v = .ok ys) :
    i < xs.length ∧ ys = xs.set i v := by
  by_cases hi : i < xs.length
  · rw [setAt_nat hi] at h; exact ⟨hi, (Except.ok.inj h).symm⟩
  · rw [setAt_ge (by omega)] at h; cases h

/-- One round of the loop of `EMAVegas.AnalysisSide`. -/
theorem vegas_round (o : OHLC F) (data : List (Vegas.Data F)) (k : Nat) (hk : k < data.length) (sides : List Side)
    (hs : sides.length = o.bullMarket.length) :
    let body : Go (List Side) := (if (k : Int) < 1 then pure sides
      else do
        let item ← idx data (k : Int)
        if (k : Int) - 10 - 1 < 0 then pure sides
        else
          let (t1, d1) ← goFor ((k : Int) - 10) (k : Int) (false, false) fun k (t1, d1) => do
            let d ← idx data k
            let dp ← idx data (k - 1)
            pure (if d.short2 >. d.long2 && dp.short2 <. dp.long2 then true else t1,
              if d.short2 <. d.long2 && dp.short2 >. dp.long2 then true else d1)
          let bull ← idx o.bullMarket (k : Int)
          setAt sides (k : Int) (Vegas.rule item bull t1 d1))
    (k < 11 ∨ k < o.bullMarket.length → ∃ s', body = .ok s' ∧ s'.length = o.bullMarket.length) ∧
      (11 ≤ k → o.bullMarket.length ≤ k → body = .error .index) := by
  intro body
  have hd : idx data (k : Int) = .ok data[k] := idx_of_getElem? (List.getElem?_eq_getElem hk)
  by_cases h11 : k < 11
  · have hb : body = .ok sides := by
      by_cases h1 : k < 1
      · exact if_pos (by omega)
      · simp only [body]
        rw [if_neg (by omega), hd, ok_bind, if_pos (by omega)]; rfl
    exact ⟨fun _ => ⟨sides, hb, hs⟩, fun h => absurd h (by omega)⟩
  · obtain ⟨q, hq⟩ := goFor_vegas data k (by omega) hk fun d dp s =>
      (if d.short2 >. d.long2 && dp.short2 <. dp.long2 then true else s.1,
        if d.short2 <. d.long2 && dp.short2 >. dp.long2 then true else s.2)
    have hb : body = (do
        let bull ← idx o.bullMarket (k : Int)
        setAt sides (k : Int) (Vegas.rule data[k] bull q.1 q.2)) := by
      simp only [body]
      rw [if_neg (by omega), hd, ok_bind, if_neg (by omega), hq, ok_bind]
    rw [hb]
    refine ⟨fun h => ?_, fun _ h => ?_⟩
    · have hl : k < o.bullMarket.length := h.resolve_left h11
      rw [idx_of_getElem? (List.getElem?_eq_getElem hl), ok_bind, setAt_nat (by omega)]
      exact ⟨_, rfl, by simpa using hs⟩
    · rw [idx_ge (by omega)]; rfl

/-- **C113 (`EMAVegas` needs the bull column).** Made from columns with a time for every close, `AnalysisSide` answers exactly
when there are at most eleven closes or a bull mark for every close, and the number of sides it answers is the number of bull
marks, not of closes. -/
theorem C113_vegas_bull (p a b c d : Int) (o : OHLC F) (ht : o.close.length ≤ o.timeUnix.length) :
    ((∃ s, (Vegas p a b c d).columnSignals o = .ok s) ↔
        o.close.length ≤ 11 ∨ o.close.length ≤ o.bullMarket.length) ∧
      ∀ s, (Vegas p a b c d).columnSignals o = .ok s → s.length = o.bullMarket.length := by
  have hx : o.close = tab o.close.length (fun i => o.close.getD i (fl 0)) := (tab_getD _ _).symm
  have hv := vegas_columns p a b c d o _ hx
  rw [if_pos ht, Indicator.columnData_eq] at hv
  rw [Strat.columnSignals_eq, hv, ok_bind]
  generalize hdata : tab o.close.length _ = data
  have hl : data.length = o.close.length := by rw [← hdata, tab_length]
  rw [← hl]
  show ((∃ s, Vegas.sides o data = .ok s) ↔ _) ∧ ∀ s, Vegas.sides o data = .ok s → _
  by_cases h : data.length ≤ 11 ∨ data.length ≤ o.bullMarket.length
  · obtain ⟨s, hs, hs'⟩ : ∃ s, Vegas.sides o data = .ok s ∧ s.length = o.bullMarket.length := by
      simp only [Vegas.sides, mk_nat, ok_bind]
      refine goFor_inv (n := data.length) (fun _ (s : List Side) => s.length = o.bullMarket.length) List.length_replicate
        fun k s hk hs => ?_
      exact (vegas_round o data k hk s hs).1 (by omega)
    exact ⟨iff_of_true ⟨s, hs⟩ h, fun s' h' => by rw [hs] at h'; cases h'; exact hs'⟩
  · have he : Vegas.sides o data = .error .index := by
      simp only [Vegas.sides, mk_nat, ok_bind, goFor]
      rw [show ((data.length : Int) - 0).toNat = data.length by omega]
      refine goForFrom_inv_error (max 11 o.bullMarket.length) (by omega) (fun _ s => s.length = o.bullMarket.length) (by simp)
        (fun k s hk hs => ?_) (fun s hs => ?_)
      · rw [Int.zero_add]; exact (vegas_round o data k (by omega) s hs).1 (by omega)
      · rw [Int.zero_add]; exact (vegas_round o data _ (by omega) s hs).2 (by omega) (by omega)
    refine ⟨iff_of_false (fun ⟨s, hs⟩ => ?_) h, fun s hs => ?_⟩ <;> rw [he] at hs <;> cases hs

/-! ## SuperTrend and the hl2 argument -/

/-- What the loop of `SuperTrend` leaves when it does not panic. -/
theorem st_tail {period mult : Int} {b : Bool} {o : OHLC F} {hl2 : List F} {d : List (ST.Data F)}
    (h : (ST period mult b).toIndicator.columnData (o, hl2) = .ok d) :
    hl2.length ≤ o.close.length ∧ d.length = o.close.length ∧
      ∀ i, hl2.length ≤ i → i < o.close.length → ∃ t, d[i]? = some ⟨t, fl 0, fl 0, fl 0, fl 0⟩ := by
  rw [Indicator.columnData_eq] at h
  change ST.Calculation period mult b (o, hl2) [] = .ok d at h
  simp only [ST.Calculation, mk_nat, ok_bind] at h
  generalize (if b = true then Ta.Atr o.high o.low o.close period else _ : Go (List F)) = g at h
  cases g with
  | error e => cases h
  | ok atr =>
    rw [ok_bind] at h
    generalize hg : goFor 0 _ _ _ = g at h
    cases g with
    | error e => cases h
    | ok st =>
      rw [ok_bind] at h
      have key := goFor_ok_inv₀ (fun k (s : List (ST.St F)) => k ≤ o.close.length ∧ s.length = o.close.length ∧
          ∀ j, k ≤ j → j < o.close.length → s[j]? = some ⟨fl 0, fl 0, fl 0, fl 0, fl 0⟩) (by
        rintro k s s' hk ⟨h1, h2, h3⟩ hb
        have hset : ∃ v, setAt s (k : Int) v = .ok s' := by
          split at hb
          · exact ⟨_, hb⟩
          · revert hb
            cases idx hl2 (k : Int) <;> cases idx atr (k : Int) <;> cases idx s ((k : Int) - 1) <;>
              cases idx o.close ((k : Int) - 1) <;> cases idx o.close (k : Int) <;> simp
            exact fun hb => ⟨_, hb⟩
        obtain ⟨v, hv⟩ := hset
        obtain ⟨hlt, rfl⟩ := setAt_ok hv
        refine ⟨by omega, by simpa using h2, fun j hj hj' => ?_⟩
        rw [List.getElem?_set_ne (by omega)]
        exact h3 j (by omega) hj') ⟨Nat.zero_le _, by simp, fun j _ hj => by simp [hj]⟩ hg
      obtain ⟨h1, h2, h3⟩ := key
      refine ⟨h1, ?_⟩
      simp only [makeLoop, mk_nat, ok_bind] at h
      have key2 := goFor_ok_inv₀ (fun k (r : List (ST.Data F)) => r.length = o.close.length ∧
          ∀ j, hl2.length ≤ j → j < k → ∃ t, r[j]? = some ⟨t, fl 0, fl 0, fl 0, fl 0⟩) (by
        rintro k r r' hk ⟨h4, h5⟩ hb
        obtain ⟨t, ht⟩ : ∃ t, idx o.timeUnix (k : Int) = .ok t := by
          cases ht : idx o.timeUnix (k : Int) with
          | error e => simp [ht] at hb
          | ok t => exact ⟨t, rfl⟩
        have hst : idx st (k : Int) = .ok st[k] := idx_of_getElem? (List.getElem?_eq_getElem (by omega))
        rw [ht, ok_bind, hst, ok_bind, pure_eq_ok, ok_bind] at hb
        obtain ⟨hlt, rfl⟩ := setAt_ok hb
        refine ⟨by simpa using h4, fun j hj hj' => ?_⟩
        by_cases e : j = k
        · subst e
          have : st[j] = ⟨fl 0, fl 0, fl 0, fl 0, fl 0⟩ :=
            Option.some.inj ((List.getElem?_eq_getElem _).symm.trans (h3 j hj (by omega)))
          exact ⟨t, by rw [List.getElem?_set_self (by omega), this]⟩
        · rw [List.getElem?_set_ne (by omega)]
          exact h5 j hj (by omega)) ⟨by simp, fun j _ hj => absurd hj (by omega)⟩ h
      exact ⟨key2.1, fun i h1 h2 => key2.2 i h1 h2⟩

/-- **C113 (`SuperTrend` and its second argument).** Made from columns and a separate `hl2` column, `SuperTrend` panics when
`hl2` is longer than the closes. When it is shorter and nothing panics, every candle past the end of `hl2` gets zero lines and
the side Hold: the strategy goes silent without an error. -/
theorem C113_supertrend_hl2 (period mult : Int) (b : Bool) (o : OHLC F) (hl2 : List F) (hz : ((fl 0 : F) ==. fl 0) = true) :
    (o.close.length < hl2.length → ∃ e, (ST period mult b).columnSignals (o, hl2) = .error e) ∧
      ∀ s, (ST period mult b).columnSignals (o, hl2) = .ok s →
        s.length = o.close.length ∧ ∀ i, 1 ≤ i → hl2.length ≤ i → i < o.close.length → s[i]? = some Hold := by
  rw [Strat.columnSignals_eq]
  have ht := @st_tail F _ period mult b o hl2
  rw [Indicator.columnData_eq] at ht
  cases hc : (ST period mult b).compute (o, hl2) [] with
  | error e => exact ⟨fun _ => ⟨e, rfl⟩, fun s h => by cases h⟩
  | ok d =>
    obtain ⟨h1, h2, h3⟩ := ht hc
    refine ⟨fun h => absurd h (by omega), fun s hs => ?_⟩
    rw [ok_bind] at hs
    change ST.sides (o, hl2) d = .ok s at hs
    obtain ⟨x, hx⟩ : ∃ x, d = tab d.length x := ⟨fun i => d.getD i ST.zero, (tab_getD d _).symm⟩
    rw [h2] at hx
    have hs2 : ST.sides (o, hl2) d = .ok (tab o.close.length fun i => if i = 0 then Buy else ST.rule (x i)) := by
      unfold ST.sides
      rw [hx, tab_length]
      exact sideLoop_tab _ (fun k hk => by simp) (by simp)
    rw [hs2] at hs
    cases hs
    refine ⟨tab_length _ _, fun i hi1 hi2 hi3 => ?_⟩
    obtain ⟨t, hi⟩ := h3 i hi2 hi3
    rw [hx, tab_getElem?_lt hi3] at hi
    rw [tab_getElem?_lt hi3, if_neg (by omega), Option.some.inj hi]
    simp [ST.rule, hz]

/-- The hypotheses of C113: rectangular columns of three candles; twelve closes with times and no bull marks; `hl2` one entry
short of three closes, where the clean `SuperTrend` sells at the last candle and the one with short `hl2` holds. -/
def threeColumns : OHLC (XF ℚ) :=
  { open_ := [.fin 9, .fin 9, .fin 1], high := [.fin 10, .fin 10, .fin 2], low := [.fin 8, .fin 8, .fin 1],
    close := [.fin 9, .fin 9, .fin 1], volume := [.fin 1, .fin 1, .fin 1], bullMarket := [true, true, false], timeUnix := [0, 1, 2] }

example : Rectangular threeColumns 3 := ⟨rfl, rfl, rfl, rfl, rfl, rfl, rfl⟩

example : ((fl 0 : XF ℚ) ==. fl 0) = true ∧
    (ST 1 1 true).columnSignals (threeColumns, [.fin 9, .fin 9, .fin (3 / 2)]) = .ok [Buy, Hold, Sell] ∧
    (ST 1 1 true).columnSignals (threeColumns, [.fin 9, .fin 9]) = .ok [Buy, Hold, Hold] := by
  decide +kernel

/-- Twelve closes and times, nothing else. -/
def closesOnly : OHLC (XF ℚ) :=
  { open_ := [], high := [], low := [], close := List.replicate 12 (.fin 1), volume := [], bullMarket := [],
    timeUnix := List.replicate 12 0 }

example : let o := closesOnly
    o.close.length ≤ o.timeUnix.length ∧ (Vegas 1 2 3 4 5).columnSignals o = .error .index ∧
      (Vegas 1 2 3 4 5).columnSignals { o with close := List.replicate 11 (.fin 1) } = .ok [] := by
  decide +kernel

end Verif.Props
