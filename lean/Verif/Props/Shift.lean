import Verif.Props.Mirror

/-!
# Adding the same amount to every price (C118)

Two reflections at different levels make a shift, so the lines and signals of C117 follow shifts too; `Rsi` and its signals
do so although they do not follow reflections. Exact arithmetic.
-/

set_option linter.unusedSectionVars false
set_option linter.unusedVariables false

namespace Verif.Props
open Verif Verif.Klines Verif.Ta Verif.Ind GoFloat XF

variable {K : Type} [Field K] [LinearOrder K] [IsStrictOrderedRing K]

/-! ## Vocabulary -/

/-- The candle with `c` added to its four prices. -/
def liftC (c : K) (k : Candle (XF K)) : Candle (XF K) :=
  { k with open_ := k.open_ +. .fin c, high := k.high +. .fin c, low := k.low +. .fin c, close := k.close +. .fin c }

/-- The series with `c` added to every price. -/
def lift (c : K) (it : Item (XF K)) : Item (XF K) := { it with candles := it.candles.map (liftC c) }

/-- From candle `k` on, the line of the shifted series is `φ c` of the line of the series; `GetData` panics for both or for
neither. -/
def Lifts (P : Item (XF K) → Prop) (I : Indicator (XF K)) (k : Nat) (u : I.D → XF K) (φ : K → XF K → XF K) : Prop :=
  ∀ (c : K) (it : Item (XF K)), P it → ((I.data (lift c it)).toOption.map fun d => (d.drop k).map u) =
    (I.data it).toOption.map fun d => (d.drop k).map fun r => φ c (u r)

/-- The line moves with the prices. -/
def Moves (P : Item (XF K) → Prop) (I : Indicator (XF K)) (k : Nat) (u : I.D → XF K) : Prop := Lifts P I k u fun c a => a +. .fin c

/-- The line does not see the shift. -/
def Rests (P : Item (XF K) → Prop) (I : Indicator (XF K)) (k : Nat) (u : I.D → XF K) : Prop := Lifts P I k u fun _ a => a

/-- The signals do not see the shift. -/
def SidesRest (P : Item (XF K) → Prop) (I : Strat (XF K)) : Prop :=
  ∀ (c : K) (it : Item (XF K)), P it → (I.signals (lift c it)).toOption = (I.signals it).toOption

/-! ## A shift is two reflections -/

theorem reflect_twice (m c : K) (a : XF K) : (.fin (m + c) -. (.fin m -. a) : XF K) = a +. .fin c := by
  cases a <;> first | rfl | skip
  rw [sub_fin, sub_fin, add_fin]; congr 1; ring

theorem reflect_twice' (m : K) (a : XF K) : (.fin m -. (.fin m -. a) : XF K) = a := by
  cases a <;> first | rfl | skip
  rw [sub_fin, sub_fin, sub_sub_cancel]

theorem lift_eq (c : K) (it : Item (XF K)) : lift c it = mirror c (mirror 0 it) := by
  simp only [lift, mirror, List.map_map]
  congr 1
  refine List.map_congr_left fun k _ => ?_
  have h : ∀ a : XF K, (.fin c -. (.fin 0 -. a) : XF K) = a +. .fin c := fun a => by
    have := reflect_twice 0 c a
    rwa [zero_add] at this
  simp only [Function.comp, mirrorC, liftC, h, Bool.not_not]

/-- A property of series that reflections preserve. -/
def Stays (P : Item (XF K) → Prop) : Prop := ∀ (m : K) (it : Item (XF K)), P it → P (mirror m it)

theorem bars_stays {Q : Bar K → Prop} (h : ∀ (m : K) (b : Bar K), Q b → Q (mirrorB m b)) : Stays (Bars (K := K) Q) := by
  rintro m it ⟨bs, hb, hq⟩
  refine ⟨bs.map (mirrorB m), ?_, fun b hb' => ?_⟩
  · have h1 : (mirror m it).candles.map (fun c => (c.open_, c.high, c.low, c.close, c.volume)) =
        (it.candles.map fun c => (c.open_, c.high, c.low, c.close, c.volume)).map
          fun t => (.fin m -. t.1, .fin m -. t.2.2.1, .fin m -. t.2.1, .fin m -. t.2.2.2.1, t.2.2.2.2) := by
      simp only [mirror, List.map_map]; rfl
    rw [Holds, h1, hb]
    simp only [List.map_map]
    refine List.map_congr_left fun b _ => ?_
    simp [Function.comp, mirrorB]
  · obtain ⟨b', h1, rfl⟩ := List.mem_map.mp hb'
    exact h m b' (hq b' h1)

theorem numeric_stays : Stays (Numeric (K := K)) := fun m it h => by
  obtain ⟨bs, hb, -⟩ := bars_stays (K := K) (Q := fun _ => True) (fun _ _ _ => trivial) m it (numeric_bars h)
  exact ⟨bs, hb⟩

theorem lifts_of {P : Item (XF K) → Prop} (hP : Stays P) {I : Indicator (XF K)} {k : Nat} {u v : I.D → XF K}
    {φ : K → XF K → XF K} (h : Turns P I k u v φ) (h' : Turns P I k v u φ) {ψ : K → XF K → XF K}
    (hψ : ∀ c a, φ c (φ 0 a) = ψ c a) : Lifts P I k u ψ := by
  intro c it hit
  have h1 := h 0 it hit
  have h2 := h' c _ (hP 0 it hit)
  rw [← lift_eq] at h2
  rw [h2]
  have h3 : ((I.data (mirror 0 it)).toOption.map fun d => (d.drop k).map fun r => φ c (v r)) =
      ((I.data (mirror 0 it)).toOption.map fun d => (d.drop k).map v).map (List.map (φ c)) := by
    rw [Option.map_map]; congr 1; funext d; simp [Function.comp_def]
  rw [h3, h1, Option.map_map]
  congr 1
  funext d
  simp only [Function.comp_def, List.map_map, hψ]

theorem moves_of {P : Item (XF K) → Prop} (hP : Stays P) {I : Indicator (XF K)} {k : Nat} {u v : I.D → XF K}
    (h : Turns P I k u v fun m a => .fin m -. a) (h' : Turns P I k v u fun m a => .fin m -. a) : Moves P I k u :=
  lifts_of hP h h' fun c a => by
    have := reflect_twice 0 c a
    rwa [zero_add] at this

theorem rests_of {P : Item (XF K) → Prop} (hP : Stays P) {I : Indicator (XF K)} {k : Nat} {u : I.D → XF K} (e : K)
    (h : Turns P I k u u fun _ a => .fin e -. a) : Rests P I k u := lifts_of hP h h fun c a => reflect_twice' e a

theorem opposite_opposite (s : Side) : opposite (opposite s) = s := by
  unfold opposite
  by_cases h1 : s = Buy
  · subst h1; rfl
  · by_cases h2 : s = Sell
    · subst h2; rfl
    · simp [h1, h2]

/-- Strategies whose first `k` signals are `Buy` whatever the data. -/
theorem sidesRest_of {Q : Bar K → Prop} (hP : Stays (Bars (K := K) Q)) {I : Strat (XF K)} {ok} {f} (hy : Signals I ok f) {k : Nat}
    (hfix : ∀ x i, i < k → f x i = Buy) (h : SidesTurn (Bars (K := K) Q) I k) : SidesRest (Bars (K := K) Q) I := by
  intro c it hit
  have h1 := h 0 it hit
  have h2 := h c _ (hP 0 it hit)
  rw [← lift_eq] at h2
  have h3 : ((I.signals (mirror 0 it)).toOption.map fun s => (s.drop k).map opposite) =
      ((I.signals (mirror 0 it)).toOption.map (List.drop k)).map (List.map opposite) := by rw [Option.map_map]; rfl
  rw [h3, h1, Option.map_map] at h2
  obtain ⟨x, hx⟩ := candles_tab it
  have hx' : (lift c it).candles = tab it.candles.length fun i => liftC c (x i) := by
    rw [lift]; conv_lhs => rw [hx]
    simp [tab, Function.comp_def]
  by_cases hok : ok it.candles.length
  · have e1 := (hy _ _ _ hx).1 hok
    have e2 := (hy _ _ _ hx').1 hok
    rw [e1, e2] at h2 ⊢
    have h4 : (tab it.candles.length (f fun i => liftC c (x i))).drop k = (tab it.candles.length (f x)).drop k := by
      have := Option.some.inj h2
      simpa [Function.comp_def, opposite_opposite] using this
    refine congrArg some (tab_ext fun i hi => ?_)
    by_cases hik : i < k
    · rw [hfix _ _ hik, hfix _ _ hik]
    · have := congrArg (·[i - k]?) h4
      simp only [List.getElem?_drop] at this
      rw [show k + (i - k) = i by omega, tab_getElem?_lt hi, tab_getElem?_lt hi] at this
      exact Option.some.inj this
  · obtain ⟨p, e1⟩ := (hy _ _ _ hx).2 hok
    obtain ⟨p', e2⟩ := (hy _ _ _ hx').2 hok
    rw [e1, e2]; rfl

theorem rest_numeric {I : Strat (XF K)} (h : SidesRest (Bars (K := K) fun _ => True) I) : SidesRest (Numeric (K := K)) I :=
  fun c it hn => h c it (numeric_bars hn)

theorem turn_bars {I : Strat (XF K)} {k : Nat} (h : SidesTurn (Numeric (K := K)) I k) : SidesTurn (Bars (K := K) fun _ => True) I k :=
  fun m it ⟨bs, hb, _⟩ => h m it ⟨bs, hb⟩

theorem stays_true : Stays (Bars (K := K) fun _ => True) := bars_stays fun _ _ _ => trivial

theorem stays_inside : Stays (Bars (K := K) CloseInside) := bars_stays fun _ _ h => mirror_inside h

theorem stays_range : Stays (Bars (K := K) HasRange) := bars_stays fun m b h => sub_lt_sub_left (show b.l < b.h from h) m

theorem stays_kdj : Stays (Bars (K := K) HasKdjRange) := bars_stays fun m b h => by
  show 1 / 1000000 ≤ (m - b.l) - (m - b.h)
  rw [sub_sub_sub_cancel_left]; exact h

/-! ## Lines -/

/-- **C118**, price lines move with the prices: the averages, the exponential sets, the channels and the cloud. -/
theorem C118_price_lines {p : Nat} (hp : 0 < p) (s1 s2 l1 l2 l : Nat) :
    (Moves (Numeric (K := K)) (SMA p) 0 Rec.value ∧ Moves (Numeric (K := K)) (MAi p) 0 Rec.value ∧
      Moves (Numeric (K := K)) (EMA p) 0 Rec.value ∧ Moves (Numeric (K := K)) (DEMA p) 0 Rec.value) ∧
    (Moves (Numeric (K := K)) (Vegas p s1 s2 l1 l2).toIndicator 0 Vegas.Data.value ∧
      Moves (Numeric (K := K)) (Vegas p s1 s2 l1 l2).toIndicator 0 Vegas.Data.short1 ∧
      Moves (Numeric (K := K)) (Vegas p s1 s2 l1 l2).toIndicator 0 Vegas.Data.short2 ∧
      Moves (Numeric (K := K)) (Vegas p s1 s2 l1 l2).toIndicator 0 Vegas.Data.long1 ∧
      Moves (Numeric (K := K)) (Vegas p s1 s2 l1 l2).toIndicator 0 Vegas.Data.long2 ∧
      Moves (Numeric (K := K)) (XO p s1).toIndicator 0 XO.Data.fast ∧
      Moves (Numeric (K := K)) (XO p s1).toIndicator 0 XO.Data.slow) ∧
    (Moves (Numeric (K := K)) (Donchian p).toIndicator 0 Band.upper ∧
      Moves (Numeric (K := K)) (Donchian p).toIndicator 0 Band.middle ∧
      Moves (Numeric (K := K)) (Donchian p).toIndicator 0 Band.lower ∧
      Moves (Numeric (K := K)) (Keltner p).toIndicator 0 Band.middle) ∧
    (Moves (Numeric (K := K)) (Ichimoku 9 p l).toIndicator 0 Ichimoku.Data.conversion ∧
      Moves (Numeric (K := K)) (Ichimoku 9 p l).toIndicator 0 Ichimoku.Data.base ∧
      Moves (Numeric (K := K)) (Ichimoku 9 p l).toIndicator 0 Ichimoku.Data.spanA ∧
      Moves (Numeric (K := K)) (Ichimoku 9 p l).toIndicator 0 Ichimoku.Data.spanB ∧
      Moves (Numeric (K := K)) (Ichimoku 9 p l).toIndicator l Ichimoku.Data.lagging) := by
  obtain ⟨a1, a2, a3, a4⟩ := C117_averages (K := K) hp
  obtain ⟨v1, v2, v3, v4, v5, x1, x2⟩ := C117_sets (K := K) p s1 s2 l1 l2
  obtain ⟨d1, d2, d3, k1⟩ := C117_channels (K := K) hp
  obtain ⟨i1, i2, i3, i4, i5⟩ := C117_ichimoku (K := K) hp l
  have m : ∀ {I : Indicator (XF K)} {k} {u : I.D → XF K}, Turns (Numeric (K := K)) I k u u (fun m a => .fin m -. a) →
    Moves (Numeric (K := K)) I k u := fun h => moves_of numeric_stays h h
  exact ⟨⟨m a1, m a2, m a3, m a4⟩, ⟨m v1, m v2, m v3, m v4, m v5, m x1, m x2⟩,
    ⟨moves_of numeric_stays d1 d3, m d2, moves_of numeric_stays d3 d1, m k1⟩, ⟨m i1, m i2, m i3, m i4, m i5⟩⟩

/-- **C118**, differences, directions and percentages do not see the shift. -/
theorem C118_relative_lines {p q : Nat} (hp : 1 ≤ p) (hq : 1 ≤ q) (s : Nat) (t l w : Int) :
    (Rests (Numeric (K := K)) (APO p q).toIndicator 0 Rec.value ∧ Rests (Numeric (K := K)) Awesome.toIndicator 0 Rec.value ∧
      Rests (Numeric (K := K)) (MACD p s q).toIndicator 0 MACD.Data.dif ∧
      Rests (Numeric (K := K)) (MACD p s q).toIndicator 0 MACD.Data.dea ∧
      Rests (Numeric (K := K)) (MACD p s q).toIndicator 0 MACD.Data.macd) ∧
    (Rests (Numeric (K := K)) OBV 0 Rec.value ∧ Rests (Numeric (K := K)) (CMF p) 0 Rec.value ∧
      Rests (Bars (K := K) CloseInside) AD 0 Rec.value ∧
      Rests (Bars (K := K) CloseInside) (Chaikin p q).toIndicator 0 Chaikin.Data.value) ∧
    (Rests (Numeric (K := K)) (CCIi p q).toIndicator 0 Rec.value ∧ Rests (Numeric (K := K)) (AiCCI p).toIndicator 0 Rec.value) ∧
    (Rests (Numeric (K := K)) (ADX t l) 0 ADX.Data.plus ∧ Rests (Numeric (K := K)) (ADX t l) 0 ADX.Data.minus ∧
      Rests (Numeric (K := K)) (ADX t l) 0 ADX.Data.adx ∧ Rests (Numeric (K := K)) (Vortex w) 0 Vortex.Data.plus ∧
      Rests (Numeric (K := K)) (Vortex w) 0 Vortex.Data.minus) ∧
    (Rests (Bars (K := K) HasRange) (Stoch p).toIndicator 0 KD.k ∧ Rests (Bars (K := K) HasRange) (Stoch p).toIndicator 0 KD.d ∧
      Rests (Numeric (K := K)) (Williams p).toIndicator 0 Rec.value ∧
      Rests (Bars (K := K) HasKdjRange) (KDJ p).toIndicator 0 KDJ.Data.k ∧
      Rests (Bars (K := K) HasKdjRange) (KDJ p).toIndicator 0 KDJ.Data.d ∧
      Rests (Bars (K := K) HasKdjRange) (KDJ p).toIndicator 0 KDJ.Data.j) := by
  obtain ⟨a1, a2, a3, a4, a5⟩ := C117_differences (K := K) p s q
  obtain ⟨v1, v2, v3, v4, -, -⟩ := C117_volume_lines (K := K) p q
  obtain ⟨c1, c2⟩ := C117_cci (K := K) hp hq
  obtain ⟨d1, d2, d3, d4, d5⟩ := C117_directional (K := K) t l w
  obtain ⟨p1, p2, p3, -, p5, p6, p7⟩ := C117_percentages (K := K) hp
  have n := numeric_stays (K := K)
  exact ⟨⟨rests_of n 0 a1, rests_of n 0 a2, rests_of n 0 a3, rests_of n 0 a4, rests_of n 0 a5⟩,
    ⟨rests_of n 0 v1, rests_of n 0 v2, rests_of stays_inside 0 v3, rests_of stays_inside 0 v4⟩,
    ⟨rests_of n 0 c1, rests_of n 0 c2⟩,
    ⟨lifts_of n d1 d2 fun _ _ => rfl, lifts_of n d2 d1 fun _ _ => rfl, lifts_of n d3 d3 fun _ _ => rfl,
      lifts_of n d4 d5 fun _ _ => rfl, lifts_of n d5 d4 fun _ _ => rfl⟩,
    ⟨rests_of stays_range 100 p1, rests_of stays_range 100 p2, rests_of n (-100) p3, rests_of stays_kdj 100 p5,
      rests_of stays_kdj 100 p6, rests_of stays_kdj 100 p7⟩⟩

theorem rsi_lift {p : Nat} (hp : 2 ≤ p) {n : Nat} {x : Nat → Candle (XF K)} {b : Nat → Bar K} (hC : Cols n x b) (c : K) (i : Nat) :
    rsiF p (cl fun j => liftC c (x j)) i = rsiF p (cl x) i := by
  have h : (cl fun j => liftC c (x j)) = finF fun j => (b j).c + c := by
    funext j
    show cl x j +. .fin c = _
    rw [hC.cl]; rfl
  rw [rsiF, rsiF, h, hC.cl]
  split
  · rfl
  · rw [rsiW_fin (by omega), rsiW_fin (by omega)]
    simp only [add_sub_add_right_eq_sub]

/-- **C118**, `Rsi` and its signals do not see the shift either. -/
theorem C118_rsi {p : Nat} (hp : 2 ≤ p) :
    Rests (Numeric (K := K)) (RSI p).toIndicator 0 Rec.value ∧ SidesRest (Numeric (K := K)) (RSI p) := by
  have hl : ∀ (c : K) (it : Item (XF K)) {n x}, it.candles = tab n x → (lift c it).candles = tab n fun i => liftC c (x i) :=
    fun c it n x hx => by rw [lift, hx]; simp [tab, Function.comp_def]
  constructor <;> intro c it hn <;> obtain ⟨x, b, hx, hC, -⟩ := (numeric_bars hn).cols <;> have hx' := hl c it hx <;>
    by_cases hok : okRsi p it.candles.length
  · rw [((RSI.appends p).yields _ _ _ hx).1 hok, ((RSI.appends p).yields _ _ _ hx').1 hok]
    exact congrArg some (drop_map_tab fun i _ _ => rsi_lift hp hC c i)
  · obtain ⟨e, h1⟩ := ((RSI.appends p).yields _ _ _ hx).2 hok
    obtain ⟨e', h2⟩ := ((RSI.appends p).yields _ _ _ hx').2 hok
    rw [h1, h2]; rfl
  · rw [((RSI.signals p) _ _ _ hx).1 hok, ((RSI.signals p) _ _ _ hx').1 hok]
    refine congrArg some (tab_ext fun i _ => ?_)
    cases i with
    | zero => rfl
    | succ k =>
      show RSI.rule ⟨_, rsiF p (cl fun j => liftC c (x j)) k⟩ ⟨_, rsiF p (cl fun j => liftC c (x j)) (k + 1)⟩ =
        RSI.rule ⟨_, rsiF p (cl x) k⟩ ⟨_, rsiF p (cl x) (k + 1)⟩
      rw [rsi_lift hp hC, rsi_lift hp hC]; rfl
  · obtain ⟨e, h1⟩ := ((RSI.signals p) _ _ _ hx).2 hok
    obtain ⟨e', h2⟩ := ((RSI.signals p) _ _ _ hx').2 hok
    rw [h1, h2]; rfl

theorem pairSide_first {D : Type} (rule : D → D → Side) (G : (Nat → Candle (XF K)) → Nat → D) (x : Nat → Candle (XF K)) (i : Nat)
    (hi : i < 1) : pairSide rule (G x) i = Buy := by
  obtain rfl : i = 0 := by omega
  rfl

theorem closeSide_first {D : Type} (rule : D → D → XF K → XF K → Side) (G : (Nat → Candle (XF K)) → Nat → D)
    (x : Nat → Candle (XF K)) (i : Nat) (hi : i < 1) : closeSide rule (G x) (cl x) i = Buy := by
  obtain rfl : i = 0 := by omega
  rfl

theorem lift_tab (c : K) {it : Item (XF K)} {n : Nat} {x : Nat → Candle (XF K)} (hx : it.candles = tab n x) :
    (lift c it).candles = tab n fun i => liftC c (x i) := by rw [lift, hx]; simp [tab, Function.comp_def]

theorem lifts_yields {I : Indicator (XF K)} {ok} {G} (hy : Yields I ok G) {k : Nat} {u : I.D → XF K} {φ : K → XF K → XF K}
    (h : ∀ (c : K) (n : Nat) (x : Nat → Candle (XF K)) (b : Nat → Bar K), Cols n x b → ∀ i, k ≤ i →
      u (G (fun j => liftC c (x j)) i) = φ c (u (G x i))) : Lifts (Numeric (K := K)) I k u φ := by
  intro c it hn
  obtain ⟨x, b, hx, hC, -⟩ := (numeric_bars hn).cols
  have hx' := lift_tab c hx
  by_cases hok : ok it.candles.length
  · rw [(hy _ _ _ hx).1 hok, (hy _ _ _ hx').1 hok]
    exact congrArg some (drop_map_tab fun i hk _ => h c _ x b hC i hk)
  · obtain ⟨e, h1⟩ := (hy _ _ _ hx).2 hok
    obtain ⟨e', h2⟩ := (hy _ _ _ hx').2 hok
    rw [h1, h2]; rfl

theorem cols_lift {n : Nat} {x : Nat → Candle (XF K)} {b : Nat → Bar K} (hC : Cols n x b) (c : K) :
    Cols n (fun j => liftC c (x j)) fun j => ⟨(b j).o + c, (b j).h + c, (b j).l + c, (b j).c + c, (b j).v⟩ where
  op := by funext j; show op x j +. .fin c = _; rw [hC.op]; rfl
  hi := by funext j; show hi x j +. .fin c = _; rw [hC.hi]; rfl
  lo := by funext j; show lo x j +. .fin c = _; rw [hC.lo]; rfl
  cl := by funext j; show cl x j +. .fin c = _; rw [hC.cl]; rfl
  vo := by funext j; show vo x j = _; rw [hC.vo]

theorem tr_lift {n : Nat} {x : Nat → Candle (XF K)} {b : Nat → Bar K} (hC : Cols n x b) (c : K) {i : Nat} (hi : 1 ≤ i) :
    trI (fun j => liftC c (x j)) i = trI x i := by
  rw [trI_fin hC, trI_fin (cols_lift hC c)]
  have hi0 : i ≠ 0 := by omega
  simp only [finF, hi0, if_false, add_sub_add_right_eq_sub]

theorem atr_lift {p : Nat} {n : Nat} {x : Nat → Candle (XF K)} {b : Nat → Bar K} (hC : Cols n x b) (c : K) (i : Nat) :
    rmaS p (trI fun j => liftC c (x j)) i = rmaS p (trI x) i := by
  induction i with
  | zero => rfl
  | succ i ih => rw [rmaS, rmaS, ih, tr_lift hC c (by omega)]

/-- **C118**, the average range does not see the shift, since the average leaves out the first candle, whose range is measured
from the price 0; so the bands of the Keltner channel move with the prices. -/
theorem C118_ranges {p : Nat} :
    Rests (Numeric (K := K)) (ATR p) 1 ATR.Data.tr ∧ Rests (Numeric (K := K)) (ATR p) 0 ATR.Data.atr ∧
    (0 < p → Moves (Numeric (K := K)) (Keltner p).toIndicator 0 Band.upper ∧
      Moves (Numeric (K := K)) (Keltner p).toIndicator 0 Band.lower) := by
  refine ⟨lifts_yields (ATR.makes _).yields fun c n x b hC i hi => tr_lift hC c hi,
    lifts_yields (ATR.makes _).yields fun c n x b hC i hi => congrArg Prod.snd (atr_lift hC c i), fun hp => ?_⟩
  have he : ∀ (c : K) {n : Nat} {x : Nat → Candle (XF K)} {b : Nat → Bar K}, Cols n x b → ∀ i,
      ∃ e r : K, emaF p (cl x) i = .fin e ∧ emaF p (cl fun j => liftC c (x j)) i = .fin (e + c) ∧
        rmaF p (trI x) i = .fin r ∧ rmaF p (trI fun j => liftC c (x j)) i = .fin r := by
    intro c n x b hC i
    refine ⟨emaK p (fun j => (b j).c) i, (rmaK p _ i).2, by rw [hC.cl, emaF_fin], ?_, by rw [trI_fin hC, rmaF_fin hp], ?_⟩
    · rw [(cols_lift hC c).cl, emaF_fin]
      congr 1
      have h1 := emaK_mirror (p := p) (m := 0) (a := fun j => (b j).c) (a' := fun j => 0 - (b j).c) (i := i) fun _ _ => rfl
      have h2 := emaK_mirror (p := p) (m := c) (a := fun j => 0 - (b j).c) (a' := fun j => (b j).c + c) (i := i)
        fun j _ => by ring
      rw [h2, h1]; ring
    · rw [show rmaF p (trI fun j => liftC c (x j)) i = rmaF p (trI x) i from congrArg Prod.snd (atr_lift hC c i), trI_fin hC,
        rmaF_fin hp]
  constructor <;> refine lifts_yields (Keltner.appends _).yields fun c n x b hC i _ => ?_ <;>
    obtain ⟨e, r, h1, h2, h3, h4⟩ := he c hC i
  · show emaF p (cl fun j => liftC c (x j)) i +. rmaF p (trI fun j => liftC c (x j)) i *. fl 2 =
      (emaF p (cl x) i +. rmaF p (trI x) i *. fl 2) +. .fin c
    rw [h1, h2, h3, h4, fl_fin, mul_fin, add_fin, add_fin, add_fin]; congr 1; ring
  · show subF (emaF p (cl fun j => liftC c (x j)) i) (rmaF p (trI fun j => liftC c (x j)) i *. fl 2) =
      subF (emaF p (cl x) i) (rmaF p (trI x) i *. fl 2) +. .fin c
    rw [h1, h2, h3, h4, fl_fin, mul_fin, subF_fin, subF_fin, add_fin]; congr 1; ring

/-- **C118**, signals: the whole list of signals, the undecided candles included, does not see the shift. -/
theorem C118_signals {p q s l : Nat} (hp : 1 ≤ p) (hq : 1 ≤ q) :
    SidesRest (Numeric (K := K)) (APO p q) ∧ SidesRest (Numeric (K := K)) Awesome ∧
    SidesRest (Numeric (K := K)) (MACD p s q) ∧ SidesRest (Bars (K := K) CloseInside) (Chaikin p q) ∧
    SidesRest (Numeric (K := K)) (Donchian p) ∧ SidesRest (Numeric (K := K)) (Keltner p) ∧
    SidesRest (Numeric (K := K)) (CCIi p q) ∧ SidesRest (Numeric (K := K)) (AiCCI p) ∧
    SidesRest (Numeric (K := K)) (Williams p) ∧ SidesRest (Bars (K := K) HasRange) (Stoch p) ∧
    SidesRest (Bars (K := K) HasKdjRange) (KDJ p) ∧ SidesRest (Numeric (K := K)) (XO p q) ∧
    SidesRest (Numeric (K := K)) (Ichimoku 9 p l) ∧
    ∀ s1 s2 l1 l2 : Nat, SidesRest (Numeric (K := K)) (Vegas p s1 s2 l1 l2) := by
  obtain ⟨h1, h2, h3, h4, h5, h6, h7, h8, h9, h10, h11, h12, h13, h14⟩ := C117_signals (K := K) (s := s) (l := l) hp hq
  have t := stays_true (K := K)
  exact ⟨rest_numeric (sidesRest_of t (APO.signals _ _) (pairSide_first _ _) (turn_bars h1)),
    rest_numeric (sidesRest_of t Awesome.signals (pairSide_first _ _) (turn_bars h2)),
    rest_numeric (sidesRest_of t (MACD.signals _ _ _) (pairSide_first _ _) (turn_bars h3)),
    sidesRest_of stays_inside (Chaikin.signals _ _) (pairSide_first _ _) h4,
    rest_numeric (sidesRest_of t (Donchian.signals _) (closeSide_first _ _) (turn_bars h5)),
    rest_numeric (sidesRest_of t (Keltner.signals _) (closeSide_first _ _) (turn_bars h6)),
    rest_numeric (sidesRest_of t (CCIi.signals _ _) (pairSide_first _ _) (turn_bars h7)),
    rest_numeric (sidesRest_of t (AiCCI.signals _) (pairSide_first _ _) (turn_bars h8)),
    rest_numeric (sidesRest_of t (Williams.signals _) (pairSide_first _ _) (turn_bars h9)),
    sidesRest_of stays_range (Stoch.signals _) (pairSide_first _ _) h10,
    sidesRest_of stays_kdj (KDJ.signals _) (pairSide_first _ _) h11,
    rest_numeric (sidesRest_of t (XO.signals _ _) (fun _ i hi => absurd hi (by omega)) (turn_bars h12)),
    rest_numeric (sidesRest_of t (Ichimoku.signals _ _ _) (fun x i hi => by rw [ichiSide, if_pos (by omega)]) (turn_bars h13)),
    fun s1 s2 l1 l2 => rest_numeric (sidesRest_of t (Vegas.signals _ _ _ _ _)
      (fun x i hi => by show vegasSide _ _ i = _; rw [vegasSide, if_pos hi]) (turn_bars (h14 s1 s2 l1 l2)))⟩

/-! ## What does see the shift -/

/-- C118 refuted for the true range of the first candle, which is measured from the price 0; for the percentages of
`PercentagePriceOscillator`, which are percentages of the price; and for the signals of `UTBot`, whose stop starts at 0. -/
theorem C118_refuted :
    ¬ Rests (Numeric (K := Rat)) (ATR 2) 0 ATR.Data.tr ∧ ¬ Rests (Numeric (K := Rat)) (PPO 1 2 2).toIndicator 0 PPO.Data.ppo ∧
    ¬ SidesRest (Numeric (K := Rat)) (UT 1 1) :=
  ⟨fun h => absurd (h 20 _ (numeric_oneItem [10, 5])) (by decide +kernel),
    fun h => absurd (h 20 _ (numeric_oneItem [10, 5])) (by decide +kernel),
    fun h => absurd (h (-20) _ (numeric_oneItem [1, 2, 3, 1, 5])) (by decide +kernel)⟩

/-! ## Examples -/

/-- The hypotheses are met, a price line moves and a percentage stays. -/
example : Numeric rangedItem ∧
    ((EMA 2).data (lift 10 rangedItem)).toOption.map (List.map Rec.value) = some [.fin 14, .fin (46 / 3), .fin (124 / 9), .fin (340 / 27), .fin (1258 / 81)] ∧
    ((EMA 2).data rangedItem).toOption.map (List.map Rec.value) = some [.fin 4, .fin (16 / 3), .fin (34 / 9), .fin (70 / 27), .fin (448 / 81)] ∧
    ((Stoch 2).data (lift 10 rangedItem)).toOption.map (List.map KD.k) =
      some [.fin (200 / 3), .fin 100, .fin 0, .fin (50 / 3), .fin (600 / 7)] :=
  ⟨⟨_, holds_barItem _⟩, by decide +kernel⟩

example : Bars (K := Rat) CloseInside rangedItem ∧ Bars (K := Rat) HasRange rangedItem ∧ Bars (K := Rat) HasKdjRange rangedItem :=
  ⟨⟨_, holds_barItem _, by decide +kernel⟩, ⟨_, holds_barItem _, by decide +kernel⟩, ⟨_, holds_barItem _, by decide +kernel⟩⟩

/-- Signals that are not all the same. -/
example : ((RSI 2).signals (lift 5 (onePriceItem [1, 2, 3, 3, 2, 5]))).toOption = some [Buy, Hold, Hold, Hold, Sell, Hold] ∧
    ((XO 1 2).signals (lift 5 (onePriceItem [5, 6, 4, 7]))).toOption = some [Hold, Buy, Sell, Buy] := by decide +kernel

end Verif.Props
