import Verif.Ind.Live
import Verif.Props.Indicators
import Verif.Props.Bars
import Verif.Props.Inputs

/-!
# Objects whose candle series changes (C136)
-/

set_option linter.unusedSectionVars false

namespace Verif.Props
open Verif Verif.Klines Verif.Ta Verif.Ind GoFloat

section
variable {F : Type} [GoMath F]

/-- The strategies that keep the pointer to the item and build a new slice in `Calculation`: the source they
read when the item is `it`, and the first candle whose side they write. -/
inductive Rebuilds : (I : Strat F) → (Item F → I.S) → Nat → Prop
  | apo (a b : Int) : Rebuilds (APO a b) (fun it => it) 1
  | macd (a b c : Int) : Rebuilds (MACD a b c) (fun it => it) 1
  | kdj (p : Int) : Rebuilds (KDJ p) (fun it => it) 1
  | boll (p k : Int) : Rebuilds (Boll p k) (fun it => it) 1

/-- The strategies that keep the pointer to the item and append to the old slice in `Calculation`. -/
inductive Extends : (I : Strat F) → (Item F → I.S) → Nat → Prop
  | awesome : Extends Awesome (fun it => it) 1
  | chaikin (a b : Int) : Extends (Chaikin a b) (fun it => it) 1
  | ppo (a b c : Int) : Extends (PPO a b c) (fun it => it) 1
  | stoch (p : Int) : Extends (Stoch p) (fun it => it) 1
  | stochRsi (a b c d : Int) : Extends (StochRSI a b c d) (fun it => it) 1
  | williams (p : Int) : Extends (Williams p) (fun it => it) 1
  | projection (a b : Int) : Extends (Projection a b) (fun it => it) 1
  | ichimoku (a : Nat) (b c : Int) (ha : 1 ≤ a) : Extends (Ichimoku a b c) (fun it => it) a
  | aiCoinCCI (p : Int) : Extends (AiCCI p) (fun it => it) 1
  | cci (p q : Int) : Extends (CCIi p q) (fun it => it) 1
  | rsi (p : Int) : Extends (RSI p) (fun it => it) 1
  | stochasticHeat (a b c d : Int) (k : MAKind) : Extends (Heat a b c d k) (fun it => it) 1
  | donchian (p : Int) : Extends (Donchian p) (fun it => it) 1
  | keltner (p : Int) : Extends (Keltner p) (fun it => it) 1
  | mfi (p : Int) : Extends (MFI p) (fun it => it) 1

/-- The strategies that read the item each time `AnalysisSide` or `Calculation` runs. -/
def Points (I : Strat F) (see : Item F → I.S) (start : Nat) : Prop := Rebuilds I see start ∨ Extends I see start

/-- The strategies whose constructor copies the columns: a later change of the item leaves their source alone. -/
inductive Copies : (I : Strat F) → (Item F → I.S → I.S) → Prop
  | traderXO (a b : Int) : Copies (XO a b) (fun _ s => s)
  | utBot (p a : Int) : Copies (UT p a) (fun _ s => s)
  | vegas (p a b c d : Int) : Copies (Vegas p a b c d) (fun _ s => s)
  | superTrend (p m : Int) (c : Bool) : Copies (ST p m c) (fun _ s => s)
  | pivotPointSuperTrend (p a : Int) (f : F) : Copies (PPST p a f) (fun _ s => s)

/-- The event changes the item. -/
def Event.changes : Event F → Bool
  | .change _ => true
  | _ => false

/-- The answer carries something. -/
def Answer.says {D : Type} : Answer D → Bool
  | .nothing => false
  | _ => true

/-! ### What the loop reads -/

/-- `AnalysisSide` is the common loop, with a rule on two records and two closes. -/
def LoopsBy (I : Strat F) (see : Item F → I.S) (start : Nat) (r : I.D → I.D → F → F → Side) : Prop :=
  ∀ (it : Item F) (m : Nat) (x : Nat → Candle F), it.candles = tab m x → ∃ rule : Int → I.D → I.D → Go Side,
    (∀ data, I.sides (see it) data = sideLoop m start data rule) ∧
    (∀ k p v, k + 1 < m → rule ((k + 1 : Nat) : Int) p v = .ok (r p v (cl x k) (cl x (k + 1)))) ∧
    (∀ (k : Nat) p v, m ≤ k → rule (k : Int) p v = .error .index ∨ ∃ s, rule (k : Int) p v = .ok s)

theorem loops_pure {I : Strat F} {see : Item F → I.S} {start : Nat} (r : I.D → I.D → Side)
    (h : ∀ it data, I.sides (see it) data = sideLoop it.candles.length start data fun _ p v => pure (r p v)) :
    LoopsBy I see start fun p v _ _ => r p v := fun it m x hx =>
  ⟨fun _ p v => pure (r p v), fun data => by rw [h, len_of hx], fun _ _ _ _ => rfl, fun _ _ _ _ => .inr ⟨_, rfl⟩⟩

theorem loops_close {I : Strat F} {see : Item F → I.S} {start : Nat} (r : I.D → I.D → F → F → Side)
    (h : ∀ it data, I.sides (see it) data = do
      let ohlc ← GetOHLC it
      sideLoop it.candles.length start data fun i prev v => do
        let price ← idx ohlc.close i
        let prevPrice ← idx ohlc.close (i - 1)
        pure (r prev v prevPrice price)) :
    LoopsBy I see start r := fun it m x hx =>
  ⟨fun i prev v => do
      let price ← idx (tab m (cl x)) i
      let prevPrice ← idx (tab m (cl x)) (i - 1)
      pure (r prev v prevPrice price),
    fun data => by rw [h, GetOHLC_tab hx, ok_bind, len_of hx]; rfl,
    fun k p v hk => by
      beta_reduce
      rw [idx_tab hk, ok_bind, show ((k + 1 : Nat) : Int) - 1 = (k : Int) by omega, idx_tab (by omega), ok_bind]
      rfl,
    fun k p v hk => by
      beta_reduce
      rw [idx_tab_ge (by exact_mod_cast hk)]
      exact .inl rfl⟩

theorem points_loop {I : Strat F} {see : Item F → I.S} {start : Nat} (h : Points I see start) :
    1 ≤ start ∧ (∀ it, I.source it = .ok (see it)) ∧ (∃ r, LoopsBy I see start r) ∧ (∃ ok G, Yields I.toIndicator ok G) := by
  rcases h with h | h
  · cases h with
    | apo a b => exact ⟨le_rfl, fun _ => rfl, ⟨_, loops_pure (I := APO a b) (see := fun it => it) zeroRule fun _ _ => rfl⟩, _, _, (APO.makes a b).yields⟩
    | macd a b c => exact ⟨le_rfl, fun _ => rfl, ⟨_, loops_pure (I := MACD a b c) (see := fun it => it) MACD.rule fun _ _ => rfl⟩, _, _, (MACD.makes a b c).yields⟩
    | kdj p => exact ⟨le_rfl, fun _ => rfl, ⟨_, loops_pure (I := KDJ p) (see := fun it => it) KDJ.rule fun _ _ => rfl⟩, _, _, (KDJ.makes p).yields⟩
    | boll p k => exact ⟨le_rfl, fun _ => rfl, ⟨_, loops_close (I := Boll p k) (see := fun it => it) Boll.rule fun _ _ => rfl⟩, _, _, (Boll.makes p k).yields⟩
  · cases h with
    | awesome => exact ⟨le_rfl, fun _ => rfl, ⟨_, loops_pure (I := Awesome) (see := fun it => it) zeroRule fun _ _ => rfl⟩, _, _, Awesome.appends.yields⟩
    | chaikin a b => exact ⟨le_rfl, fun _ => rfl, ⟨_, loops_pure (I := Chaikin a b) (see := fun it => it) Chaikin.rule fun _ _ => rfl⟩, _, _, (Chaikin.appends a b).yields⟩
    | ppo a b c => exact ⟨le_rfl, fun _ => rfl, ⟨_, loops_pure (I := PPO a b c) (see := fun it => it) PPO.rule fun _ _ => rfl⟩, _, _, (PPO.appends a b c).yields⟩
    | stoch p => exact ⟨le_rfl, fun _ => rfl, ⟨_, loops_pure (I := Stoch p) (see := fun it => it) KD.rule fun _ _ => rfl⟩, _, _, (Stoch.appends p).yields⟩
    | stochRsi a b c d => exact ⟨le_rfl, fun _ => rfl, ⟨_, loops_pure (I := StochRSI a b c d) (see := fun it => it) KD.rule fun _ _ => rfl⟩, _, _, (StochRSI.appends a b c d).yields⟩
    | williams p => exact ⟨le_rfl, fun _ => rfl, ⟨_, loops_pure (I := Williams p) (see := fun it => it) Williams.rule fun _ _ => rfl⟩, _, _, (Williams.appends p).yields⟩
    | projection a b => exact ⟨le_rfl, fun _ => rfl, ⟨_, loops_pure (I := Projection a b) (see := fun it => it) Projection.rule fun _ _ => rfl⟩, _, _, (Projection.appends a b).yields⟩
    | ichimoku a b c ha =>
      exact ⟨ha, fun _ => rfl, ⟨_, loops_close (I := Ichimoku _ b c) (see := fun it => it) (fun p v c' c => Ichimoku.rule c c' p v) fun _ _ => rfl⟩, _, _,
        (Ichimoku.appends _ b c).yields⟩
    | aiCoinCCI p => exact ⟨le_rfl, fun _ => rfl, ⟨_, loops_pure (I := AiCCI p) (see := fun it => it) CCIi.rule fun _ _ => rfl⟩, _, _, (AiCCI.appends p).yields⟩
    | cci p q => exact ⟨le_rfl, fun _ => rfl, ⟨_, loops_pure (I := CCIi p q) (see := fun it => it) CCIi.rule fun _ _ => rfl⟩, _, _, (CCIi.appends p q).yields⟩
    | rsi p => exact ⟨le_rfl, fun _ => rfl, ⟨_, loops_pure (I := RSI p) (see := fun it => it) RSI.rule fun _ _ => rfl⟩, _, _, (RSI.appends p).yields⟩
    | stochasticHeat a b c d k => exact ⟨le_rfl, fun _ => rfl, ⟨_, loops_pure (I := Heat a b c d k) (see := fun it => it) Heat.rule fun _ _ => rfl⟩, _, _, (Heat.appends a b c d k).yields⟩
    | donchian p => exact ⟨le_rfl, fun _ => rfl, ⟨_, loops_close (I := Donchian p) (see := fun it => it) Band.rule fun _ _ => rfl⟩, _, _, (Donchian.appends p).yields⟩
    | keltner p => exact ⟨le_rfl, fun _ => rfl, ⟨_, loops_close (I := Keltner p) (see := fun it => it) Band.rule fun _ _ => rfl⟩, _, _, (Keltner.appends p).yields⟩
    | mfi p => exact ⟨le_rfl, fun _ => rfl, ⟨_, loops_pure (I := MFI p) (see := fun it => it) MFI.rule fun _ _ => rfl⟩, _, _, (MFI.appends p).yields⟩

theorem rebuilds_makes {I : Strat F} {see : Item F → I.S} {start : Nat} (h : Rebuilds I see start) :
    ∃ ok G, Makes I.toIndicator ok G := by
  cases h with
  | apo a b => exact ⟨_, _, APO.makes a b⟩
  | macd a b c => exact ⟨_, _, MACD.makes a b c⟩
  | kdj p => exact ⟨_, _, KDJ.makes p⟩
  | boll p k => exact ⟨_, _, Boll.makes p k⟩

theorem extends_appends {I : Strat F} {see : Item F → I.S} {start : Nat} (h : Extends I see start) :
    ∃ ok G, Appends I.toIndicator ok G := by
  cases h with
  | awesome => exact ⟨_, _, Awesome.appends⟩
  | chaikin a b => exact ⟨_, _, Chaikin.appends a b⟩
  | ppo a b c => exact ⟨_, _, PPO.appends a b c⟩
  | stoch p => exact ⟨_, _, Stoch.appends p⟩
  | stochRsi a b c d => exact ⟨_, _, StochRSI.appends a b c d⟩
  | williams p => exact ⟨_, _, Williams.appends p⟩
  | projection a b => exact ⟨_, _, Projection.appends a b⟩
  | ichimoku a b c ha => exact ⟨_, _, Ichimoku.appends _ b c⟩
  | aiCoinCCI p => exact ⟨_, _, AiCCI.appends p⟩
  | cci p q => exact ⟨_, _, CCIi.appends p q⟩
  | rsi p => exact ⟨_, _, RSI.appends p⟩
  | stochasticHeat a b c d k => exact ⟨_, _, Heat.appends a b c d k⟩
  | donchian p => exact ⟨_, _, Donchian.appends p⟩
  | keltner p => exact ⟨_, _, Keltner.appends p⟩
  | mfi p => exact ⟨_, _, MFI.appends p⟩

/-- A filled cache is what `AnalysisSide` reads. -/
theorem on_sides {I : Strat F} {see : Item F → I.S → I.S} {e : Obj I.toIndicator} (he : e.data ≠ []) {s : List Side}
    (hs : I.sides e.src e.data = .ok s) : I.on see e .analysisSide = .ok (.sides s, e) := by
  have : ¬ e.data.length = 0 := fun h => he (List.length_eq_zero_iff.mp h)
  simp [Strat.on, Strat.AnalysisSide, Obj.read, Obj.ensure, this, hs]

theorem on_sides_error {I : Strat F} {see : Item F → I.S → I.S} {e : Obj I.toIndicator} (he : e.data ≠ []) {p : Panic}
    (hs : I.sides e.src e.data = .error p) : I.on see e .analysisSide = .error p := by
  have : ¬ e.data.length = 0 := fun h => he (List.length_eq_zero_iff.mp h)
  simp [Strat.on, Strat.AnalysisSide, Obj.read, Obj.ensure, this, hs]

/-- The first `AnalysisSide` of a new object fills the cache. -/
theorem on_first {I : Strat F} {see : Item F → I.S → I.S} {s : I.S} {d : List I.D} {t : List Side}
    (hd : I.compute s [] = .ok d) (ht : I.sides s d = .ok t) :
    I.on see ⟨s, []⟩ .analysisSide = .ok (.sides t, ⟨s, d⟩) := by
  simp [Strat.on, Strat.AnalysisSide, Obj.read, Obj.ensure, Obj.Calculation, hd, ht]

/-- What a new object of a pointer type has computed when its signals are `s`. -/
theorem points_first {I : Strat F} {see : Item F → I.S} {start : Nat} (h : Points I see start) {it : Item F}
    {s : List Side} (hs : I.signals it = .ok s) {n : Nat} {x : Nat → Candle F} (hx : it.candles = tab n x) :
    ∃ g, I.compute (see it) [] = .ok (tab n g) ∧ I.sides (see it) (tab n g) = .ok s := by
  obtain ⟨_, hsrc, _, ok, G, hy⟩ := points_loop h
  have h1 := hs
  simp only [Strat.signals, Indicator.new, hsrc, ok_bind, pure_eq_ok, Strat.AnalysisSide, Obj.read, Obj.ensure,
    List.length_nil, if_true, Obj.Calculation] at h1
  cases hc : I.compute (see it) [] with
  | error p => simp [hc] at h1
  | ok d =>
    have hd : I.data it = .ok d := by
      simp [Indicator.data, Indicator.new, hsrc, Obj.GetData, Obj.read, Obj.ensure, Obj.Calculation, hc]
    obtain ⟨_, rfl⟩ := yields_inv hy hx hd
    refine ⟨_, rfl, ?_⟩
    simp only [hc, ok_bind] at h1
    cases ht : I.sides (see it) (tab n (G x)) with
    | error p => simp [ht] at h1
    | ok t =>
      simp only [ht, ok_bind, Except.ok.injEq] at h1
      rw [h1]

theorem data_ne {D : Type} {n : Nat} {g : Nat → D} (h : n ≠ 0) : tab n g ≠ [] := fun e => h (by simpa using congrArg List.length e)

/-- **C136** (new candles): an object that keeps the pointer to the item and has been read once answers, after
candles have been appended to the item, its old sides followed by `Buy` for every new candle, whatever these
candles are. -/
theorem C136_new_candles {I : Strat F} {see : Item F → I.S} {start : Nat} (h : Points I see start) {it it' : Item F}
    {later : List (Candle F)} (hne : it.candles ≠ []) (hc : it'.candles = it.candles ++ later)
    {s : List Side} (hs : I.signals it = .ok s) :
    I.history (fun it _ => see it) it [.analysisSide, .change it', .analysisSide] =
      .ok [.sides s, .nothing, .sides (s ++ List.replicate later.length Buy)] := by
  obtain ⟨h1, hsrc, ⟨r, hr⟩, _⟩ := points_loop h
  obtain ⟨x, hx⟩ := candles_tab it
  obtain ⟨x', hx'⟩ := candles_tab it'
  generalize hn : it.candles.length = n at hx
  have hn0 : n ≠ 0 := by rintro rfl; exact hne (List.length_eq_zero_iff.mp hn)
  have hm : it'.candles.length = n + later.length := by rw [hc, List.length_append, hn]
  rw [hm] at hx'
  have hxx : ∀ k < n, x' k = x k := by
    intro k hk
    have e : it'.candles[k]? = it.candles[k]? := by rw [hc, List.getElem?_append_left (by omega)]
    rw [hx, hx', tab_getElem?_lt (by omega), tab_getElem?_lt hk] at e
    exact Option.some.inj e
  obtain ⟨g, hg, ht⟩ := points_first h hs hx
  obtain ⟨rule, e1, e2, _⟩ := hr it n x hx
  obtain ⟨rule', e1', e2', _⟩ := hr it' _ x' hx'
  set f : Nat → Side := fun k => if start ≤ k ∧ k < n then r (g (k - 1)) (g k) (cl x (k - 1)) (cl x k) else Buy with hf
  have t1 : s = tab n f := by
    rw [e1, sideLoop_long f le_rfl (fun k hk hk' => by rw [e2 _ _ _ hk, hf]; simp [hk, hk']) h1
      (fun k hk => by rw [hf]; exact if_neg (by omega))] at ht
    exact (Except.ok.inj ht).symm
  have t2 : I.sides (see it') (tab n g) = .ok (s ++ List.replicate later.length Buy) := by
    rw [e1', sideLoop_long f (by omega) (fun k hk hk' => by
        rw [e2' _ _ _ (by omega), hf]
        simp [hk, hk', cl, hxx k (by omega), hxx (k + 1) hk]) h1
      (fun k hk => by rw [hf]; exact if_neg (by omega)), t1]
    congr 1
    refine (eq_tab_of_forall (by simp) fun i hi => ?_).symm
    by_cases hin : i < n
    · rw [List.getElem?_append_left (by simpa using hin), tab_getElem?_lt hin]
    · rw [List.getElem?_append_right (by simpa using hin), List.getElem?_replicate, if_pos (by simp; omega), hf]
      simp [hin]
  simp only [Strat.history, Indicator.new, hsrc, ok_bind, pure_eq_ok, Strat.after, on_first hg ht]
  have := on_sides (I := I) (see := fun it _ => see it) (e := ⟨see it', tab n g⟩) (data_ne hn0) t2
  simp only [Strat.on, pure_eq_ok, ok_bind] at this ⊢
  rw [this]
  rfl

/-- **C136** (fewer candles): if the item has become shorter than the cached records, `AnalysisSide` panics. -/
theorem C136_lost_candles {I : Strat F} {see : Item F → I.S} {start : Nat} (h : Points I see start) {it it' : Item F}
    (hlt : it'.candles.length < it.candles.length) (hst : start < it.candles.length)
    {s : List Side} (hs : I.signals it = .ok s) :
    I.history (fun it _ => see it) it [.analysisSide, .change it', .analysisSide] = .error .index := by
  obtain ⟨h1, hsrc, ⟨r, hr⟩, _⟩ := points_loop h
  obtain ⟨x, hx⟩ := candles_tab it
  obtain ⟨x', hx'⟩ := candles_tab it'
  obtain ⟨g, hg, ht⟩ := points_first h hs hx
  obtain ⟨rule', e1', e2', e3'⟩ := hr it' _ x' hx'
  have t2 : I.sides (see it') (tab it.candles.length g) = .error .index := by
    rw [e1']
    exact sideLoop_short (fun k => r (g (k - 1)) (g k) (cl x' (k - 1)) (cl x' k)) (max_lt hlt hst) h1
      (fun k hk _ => e2' _ _ _ hk) e3'
  simp only [Strat.history, Indicator.new, hsrc, ok_bind, pure_eq_ok, Strat.after, on_first hg ht]
  have := on_sides_error (I := I) (see := fun it _ => see it) (e := ⟨see it', tab it.candles.length g⟩) (data_ne (by omega)) t2
  simp only [Strat.on, pure_eq_ok, ok_bind] at this ⊢
  rw [this]
  rfl

/-- **C136** (recalculation): where `Calculation` builds a new slice, calling it after the change gives the
records and the sides of a new object on the changed item. -/
theorem C136_recalculated {I : Strat F} {see : Item F → I.S} {start : Nat} (h : Rebuilds I see start) {it it' : Item F}
    {s s' : List Side} {d' : List I.D} (hs : I.signals it = .ok s) (hd' : I.data it' = .ok d') (hs' : I.signals it' = .ok s') :
    I.history (fun it _ => see it) it [.analysisSide, .change it', .calculation, .getData, .analysisSide] =
      .ok [.sides s, .nothing, .nothing, .records d', .sides s'] := by
  obtain ⟨h1, hsrc, _, _⟩ := points_loop (.inl h)
  obtain ⟨x, hx⟩ := candles_tab it
  obtain ⟨x', hx'⟩ := candles_tab it'
  obtain ⟨g, hg, ht⟩ := points_first (.inl h) hs hx
  obtain ⟨g', hg', ht'⟩ := points_first (.inl h) hs' hx'
  obtain ⟨ok, G, hm⟩ := rebuilds_makes h
  obtain ⟨hok, rfl⟩ := yields_inv hm.yields hx' hd'
  obtain ⟨src, hsrc', c1, _⟩ := hm it' _ x' hx'
  rw [hsrc] at hsrc'
  obtain rfl := Except.ok.inj hsrc'
  rw [c1 hok] at hg'
  rw [← Except.ok.inj hg'] at ht'
  simp only [Strat.history, Indicator.new, hsrc, ok_bind, pure_eq_ok, Strat.after, on_first hg ht]
  by_cases he : (tab it'.candles.length (G x')).length = 0
  · simp only [Strat.on, Obj.Calculation, Obj.GetData, Strat.AnalysisSide, Obj.read, Obj.ensure, pure_eq_ok, ok_bind, c1 hok, ht',
      if_pos he]
  · simp only [Strat.on, Obj.Calculation, Obj.GetData, Strat.AnalysisSide, Obj.read, Obj.ensure, pure_eq_ok, ok_bind, c1 hok, ht',
      if_neg he]

/-- **C136** refuted for the others: where `Calculation` appends, calling it after the change leaves more records
than candles, and `AnalysisSide` panics. -/
theorem C136_recalculated_refuted {I : Strat F} {see : Item F → I.S} {start : Nat} (h : Extends I see start) {it it' : Item F}
    (hne : it.candles ≠ []) (hst : start < it.candles.length + it'.candles.length)
    {s s' : List Side} (hs : I.signals it = .ok s) (hs' : I.signals it' = .ok s') :
    I.history (fun it _ => see it) it [.analysisSide, .change it', .calculation, .analysisSide] = .error .index := by
  obtain ⟨h1, hsrc, ⟨r, hr⟩, _⟩ := points_loop (.inr h)
  obtain ⟨x, hx⟩ := candles_tab it
  obtain ⟨x', hx'⟩ := candles_tab it'
  obtain ⟨g, hg, ht⟩ := points_first (.inr h) hs hx
  obtain ⟨g', hg', _⟩ := points_first (.inr h) hs' hx'
  obtain ⟨ok, G, hm⟩ := extends_appends h
  have hd' : I.data it' = .ok (tab it'.candles.length g') := by
    simp [Indicator.data, Indicator.new, hsrc, Obj.GetData, Obj.read, Obj.ensure, Obj.Calculation, hg']
  obtain ⟨hok, _⟩ := yields_inv hm.yields hx' hd'
  obtain ⟨src, hsrc', c1, _⟩ := hm it' _ x' hx'
  rw [hsrc] at hsrc'
  obtain rfl := Except.ok.inj hsrc'
  have hn0 : it.candles.length ≠ 0 := fun h0 => hne (List.length_eq_zero_iff.mp h0)
  obtain ⟨all, hall⟩ : ∃ all, tab it.candles.length g ++ tab it'.candles.length (G x') =
      tab (it.candles.length + it'.candles.length) all := by
    obtain ⟨all, hall⟩ := exists_tab (tab it.candles.length g ++ tab it'.candles.length (G x')) (by simp [data_ne hn0])
    exact ⟨all, by simpa using hall⟩
  obtain ⟨rule', e1', e2', e3'⟩ := hr it' _ x' hx'
  have t2 : I.sides (see it') (tab (it.candles.length + it'.candles.length) all) = .error .index := by
    rw [e1']
    exact sideLoop_short (fun k => r (all (k - 1)) (all k) (cl x' (k - 1)) (cl x' k)) (max_lt (by omega) hst) h1
      (fun k hk _ => e2' _ _ _ hk) e3'
  simp only [Strat.history, Indicator.new, hsrc, ok_bind, pure_eq_ok, Strat.after, on_first hg ht]
  have := on_sides_error (I := I) (see := fun it _ => see it) (e := ⟨see it', tab (it.candles.length + it'.candles.length) all⟩)
    (data_ne (by omega)) t2
  simp only [Strat.on, Obj.Calculation, pure_eq_ok, ok_bind, c1 hok, hall] at this ⊢
  rw [this]
  rfl

omit [GoMath F] in
/-- **C136** (records): once the cache is filled and as long as nobody calls `Calculation`, every `GetData`
answers the same records, whatever happens to the item. -/
theorem C136_frozen {I : Strat F} (see : Item F → I.S → I.S) (vs : List (Event F)) (hv : Event.calculation ∉ vs) :
    ∀ {e e' : Obj I.toIndicator} {as : List (Answer I.D)}, e.data ≠ [] → I.after see e vs = .ok (as, e') →
      e'.data = e.data ∧ ∀ d, Answer.records d ∈ as → d = e.data := by
  induction vs with
  | nil =>
    intro e e' as _ h
    simp only [Strat.after, pure_eq_ok, Except.ok.injEq, Prod.mk.injEq] at h
    obtain ⟨rfl, rfl⟩ := h
    simp
  | cons v vs ih =>
    intro e e' as he h
    rw [Strat.after] at h
    have hl : ¬ e.data.length = 0 := fun h => he (List.length_eq_zero_iff.mp h)
    have ih := @ih (fun h' => hv (List.mem_cons_of_mem _ h'))
    cases ho : I.on see e v with
    | error p => simp [ho] at h
    | ok q =>
      obtain ⟨a, e1⟩ := q
      have hd : e1.data = e.data ∧ ∀ d, a = .records d → d = e.data := by
        cases v with
        | change it =>
          simp only [Strat.on, pure_eq_ok, Except.ok.injEq, Prod.mk.injEq] at ho
          obtain ⟨rfl, rfl⟩ := ho
          exact ⟨rfl, nofun⟩
        | getData =>
          simp only [Strat.on, Obj.GetData, Obj.read, Obj.ensure, if_neg hl, pure_eq_ok, ok_bind, Except.ok.injEq,
            Prod.mk.injEq] at ho
          obtain ⟨rfl, rfl⟩ := ho
          exact ⟨rfl, fun d hd => by injection hd with hd; exact hd.symm⟩
        | analysisSide =>
          simp only [Strat.on, Strat.AnalysisSide, Obj.read, Obj.ensure, if_neg hl, pure_eq_ok, ok_bind] at ho
          cases hs : I.sides e.src e.data with
          | error p => simp [hs] at ho
          | ok t =>
            simp only [hs, ok_bind, Except.ok.injEq, Prod.mk.injEq] at ho
            obtain ⟨rfl, rfl⟩ := ho
            exact ⟨rfl, nofun⟩
        | calculation => exact absurd List.mem_cons_self hv
      simp only [ho, ok_bind] at h
      cases hr : I.after see e1 vs with
      | error p => simp [hr] at h
      | ok q =>
        obtain ⟨as', e2⟩ := q
        simp only [hr, ok_bind, pure_eq_ok, Except.ok.injEq, Prod.mk.injEq] at h
        obtain ⟨rfl, rfl⟩ := h
        obtain ⟨i1, i2⟩ := ih (by rw [hd.1]; exact he) hr
        refine ⟨i1.trans hd.1, fun d hm => ?_⟩
        rcases List.mem_cons.mp hm with hm | hm
        · exact hd.2 d hm.symm
        · exact (i2 d hm).trans hd.1

theorem after_same {I : Strat F} (vs : List (Event F)) : ∀ e : Obj I.toIndicator,
    (I.after (fun _ s => s) e vs).map (fun q => (q.1.filter Answer.says, q.2)) =
      (I.after (fun _ s => s) e (vs.filter (!Event.changes ·))).map fun q => (q.1.filter Answer.says, q.2) := by
  induction vs with
  | nil => intro e; rfl
  | cons v vs ih =>
    intro e
    cases hv : Event.changes v with
    | true =>
      cases v <;> simp [Event.changes] at hv
      rw [List.filter_cons_of_neg (by simp [Event.changes]), ← ih e, Strat.after]
      simp only [Strat.on, pure_eq_ok, ok_bind]
      cases I.after (fun _ s => s) e vs <;> rfl
    | false =>
      rw [List.filter_cons_of_pos (by simp [hv]), Strat.after, Strat.after]
      cases I.on (fun _ s => s) e v with
      | error p => rfl
      | ok q =>
        obtain ⟨a, e1⟩ := q
        simp only [ok_bind, pure_eq_ok]
        have := ih e1
        cases h1 : I.after (fun _ s => s) e1 vs <;> cases h2 : I.after (fun _ s => s) e1 (vs.filter (!Event.changes ·)) <;>
          simp only [h1, h2, Except.map, ok_bind, error_bind, Except.ok.injEq, Except.error.injEq, Prod.mk.injEq, reduceCtorEq] at this ⊢
        · exact this
        · obtain ⟨t1, t2⟩ := this
          exact ⟨by rw [List.filter_cons, List.filter_cons, t1], t2⟩

/-- **C136** (copied columns): an object that copied the columns answers as if the item had never changed. -/
theorem C136_copied {I : Strat F} {see : Item F → I.S → I.S} (h : Copies I see) (it : Item F) (vs : List (Event F)) :
    (I.history see it vs).map (List.filter Answer.says) =
      (I.history see it (vs.filter (!Event.changes ·))).map (List.filter Answer.says) := by
  have hsee : see = fun _ s => s := by cases h <;> rfl
  subst hsee
  rw [Strat.history, Strat.history]
  cases I.toIndicator.new it with
  | error p => rfl
  | ok e =>
    have := after_same (I := I) vs e
    simp only [ok_bind, pure_eq_ok]
    cases h1 : I.after (fun _ s => s) e vs <;> cases h2 : I.after (fun _ s => s) e (vs.filter (!Event.changes ·)) <;>
      simp only [h1, h2, Except.map, ok_bind, error_bind, Except.ok.injEq, Except.error.injEq, Prod.mk.injEq, reduceCtorEq] at this ⊢
    · exact this
    · exact this.1

end

/-! ### Examples -/

/-- A market with these closes. -/
def closing (cs : List ℚ) : Item (XF ℚ) := barItem (cs.map fun c => ⟨c, c, c, c, 1⟩)

/-- **C136** refuted: the sides of an object that was read once do not follow the item. The market rises, the
object is read, the market crashes: a new object reports `Sell` for the crash, the old one `Buy`. -/
theorem C136_new_candles_refuted :
    (APO (F := XF ℚ) 1 2).history (fun it _ => it) (closing [1, 2, 3]) [.analysisSide, .change (closing [1, 2, 3, 1]), .analysisSide] =
      .ok [.sides [Buy, Hold, Hold], .nothing, .sides [Buy, Hold, Hold, Buy]] ∧
    (APO (F := XF ℚ) 1 2).signals (closing [1, 2, 3, 1]) = .ok [Buy, Hold, Hold, Sell] :=
  ⟨@C136_new_candles _ anyMath _ _ 1 (.inl (@Rebuilds.apo _ anyMath 1 2)) (closing [1, 2, 3]) (closing [1, 2, 3, 1])
    (closing [1]).candles (by decide +kernel) (by decide +kernel) _ (by decide +kernel), by decide +kernel⟩

example : (Donchian (F := XF ℚ) 2).history (fun it _ => it) (closing [1, 2, 3])
    [.analysisSide, .change (closing [1, 2]), .analysisSide] = .error .index :=
  @C136_lost_candles _ anyMath _ _ 1 (.inr (@Extends.donchian _ anyMath 2)) (closing [1, 2, 3]) (closing [1, 2])
    (by decide +kernel) (by decide +kernel) [Buy, Hold, Hold] (by decide +kernel)

example : ∃ d, (APO (F := XF ℚ) 1 2).history (fun it _ => it) (closing [1, 2, 3])
    [.analysisSide, .change (closing [1, 2, 3, 1]), .calculation, .getData, .analysisSide] =
      .ok [.sides [Buy, Hold, Hold], .nothing, .nothing, .records d, .sides [Buy, Hold, Hold, Sell]] := by
  have hd : ((APO (F := XF ℚ) 1 2).data (closing [1, 2, 3, 1])).toOption.isSome = true := by decide +kernel
  cases h : (APO (F := XF ℚ) 1 2).data (closing [1, 2, 3, 1]) with
  | error p => rw [h] at hd; exact absurd hd (by simp [Except.toOption])
  | ok d =>
    exact ⟨d, @C136_recalculated _ anyMath _ _ 1 (@Rebuilds.apo _ anyMath 1 2) (closing [1, 2, 3]) (closing [1, 2, 3, 1])
      _ _ d (by decide +kernel) h (by decide +kernel)⟩

example : (Stoch (F := XF ℚ) 2).history (fun it _ => it) (closing [1, 2, 3])
    [.analysisSide, .change (closing [1, 2, 3, 1]), .calculation, .analysisSide] = .error .index :=
  @C136_recalculated_refuted _ anyMath _ _ 1 (@Extends.stoch _ anyMath 2) (closing [1, 2, 3]) (closing [1, 2, 3, 1])
    (by decide +kernel) (by decide +kernel) [Buy, Hold, Hold] [Buy, Hold, Hold, Sell] (by decide +kernel) (by decide +kernel)

/-- The cache outlives a change of the item. -/
example : ∃ as e', (APO (F := XF ℚ) 1 2).after (fun it _ => it) ⟨closing [1], [⟨0, fl 7⟩]⟩
      [.getData, .change (closing [5, 6]), .getData] = .ok (as, e') ∧ e'.data = [⟨0, fl 7⟩] ∧
    ∀ d, Answer.records d ∈ as → d = [⟨0, fl 7⟩] :=
  ⟨_, _, rfl, C136_frozen (I := APO (F := XF ℚ) 1 2) (fun it _ => it) [.getData, .change (closing [5, 6]), .getData] (by simp)
    (e := ⟨closing [1], [⟨0, fl 7⟩]⟩) (by simp) rfl⟩

/-- Changes, readings and a recalculation of an object that copied the columns. -/
example : ((UT (F := XF ℚ) 1 2).history (fun _ s => s) (closing [1, 2, 3])
      [.analysisSide, .change (closing [9, 1]), .analysisSide, .calculation, .change (closing []), .getData]).map (List.filter Answer.says) =
    ((UT (F := XF ℚ) 1 2).history (fun _ s => s) (closing [1, 2, 3])
      [.analysisSide, .analysisSide, .calculation, .getData]).map (List.filter Answer.says) :=
  @C136_copied _ anyMath _ _ (@Copies.utBot _ anyMath 1 2) (closing [1, 2, 3])
    [.analysisSide, .change (closing [9, 1]), .analysisSide, .calculation, .change (closing []), .getData]

end Verif.Props
