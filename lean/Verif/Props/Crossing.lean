import Verif.Props.Indicators

/-!
# Crossing strategies (C41, C42)

The two lines of a crossing strategy are functions of a record and its candle. Comparisons are those of
float64, so a NaN on either side makes every comparison false.
-/

set_option linter.unusedSectionVars false

namespace Verif.Props
open Verif Verif.Klines Verif.Ta Verif.Ind GoFloat

variable {F : Type} [GoFloat F]

/-- The two-line and zero-line strategies with their lines. -/
inductive Crossing : (I : Strat F) → (a b : I.D → Candle F → F) → Prop
  | apo (p q : Int) : Crossing (APO p q) (fun r _ => r.value) (fun _ _ => fl 0)
  | awesome : Crossing Awesome (fun r _ => r.value) (fun _ _ => fl 0)
  | chaikin (p q : Int) : Crossing (Chaikin p q) (fun r _ => r.value) (fun _ _ => fl 0)
  | ppo (p q r : Int) : Crossing (PPO p q r) (fun r _ => r.ppo) (fun r _ => r.signal)
  | stoch (p : Int) : Crossing (Stoch p) (fun r _ => r.k) (fun r _ => r.d)
  | stochRsi (p q r s : Int) : Crossing (StochRSI p q r s) (fun r _ => r.k) (fun r _ => r.d)
  | stochasticHeat (p q r s : Int) (k : MAKind) : Crossing (Heat p q r s k) (fun r _ => r.slow) (fun r _ => r.fast)
  | donchian (p : Int) : Crossing (Donchian p) (fun _ c => c.close) (fun r _ => r.middle)
  | keltner (p : Int) : Crossing (Keltner p) (fun _ c => c.close) (fun r _ => r.middle)
  | utBot (p q : Int) : Crossing (UT p q) (fun r _ => r.close) (fun r _ => r.value)

theorem Crossing.rule {I : Strat F} {a b : I.D → Candle F → F} (h : Crossing I a b) :
    ∃ ok G f, Yields I.toIndicator ok G ∧ Signals I ok f ∧ ∀ x k, f x (k + 1) =
      crossRule (a (G x (k + 1)) (x (k + 1))) (b (G x (k + 1)) (x (k + 1))) (a (G x k) (x k)) (b (G x k) (x k)) := by
  cases h with
  | apo p q => exact ⟨_, _, _, (APO.makes p q).yields, APO.signals p q, fun _ _ => rfl⟩
  | awesome => exact ⟨_, _, _, Awesome.appends.yields, Awesome.signals, fun _ _ => rfl⟩
  | chaikin p q => exact ⟨_, _, _, (Chaikin.appends p q).yields, Chaikin.signals p q, fun _ _ => rfl⟩
  | ppo p q r => exact ⟨_, _, _, (PPO.appends p q r).yields, PPO.signals p q r, fun _ _ => rfl⟩
  | stoch p => exact ⟨_, _, _, (Stoch.appends p).yields, Stoch.signals p, fun _ _ => rfl⟩
  | stochRsi p q r s => exact ⟨_, _, _, (StochRSI.appends p q r s).yields, StochRSI.signals p q r s, fun _ _ => rfl⟩
  | stochasticHeat p q r s k =>
    refine ⟨_, _, _, (Heat.appends p q r s k).yields, Heat.signals p q r s k, fun x k => ?_⟩
    simp only [pairSide, Heat.rule, crossRule]
    congr 2
    · exact Bool.and_comm _ _
    · exact congrArg (· = true) (Bool.and_comm _ _)
  | donchian p => exact ⟨_, _, _, (Donchian.appends p).yields, Donchian.signals p, fun _ _ => rfl⟩
  | keltner p => exact ⟨_, _, _, (Keltner.appends p).yields, Keltner.signals p, fun _ _ => rfl⟩
  | utBot p q =>
    refine ⟨_, _, _, (UT.makes p q).yields, UT.signals p q, fun x k => ?_⟩
    simp only [pairSide, UT.rule, crossRule]
    rw [← Bool.and_assoc, Bool.and_self, ← Bool.and_assoc, Bool.and_self]

/-- `a < b` and `b < a` are never both true; so it is for float64. -/
def LtAsymm (F : Type) [GoFloat F] : Prop := ∀ a b : F, (a <. b) = true → (b <. a) = false

theorem sides_iff {P Q : Bool} (h : P = true → Q = true → False) {v : Side}
    (hv : v = if P then Buy else if Q then Sell else Hold) :
    (v = Buy ↔ P = true) ∧ (v = Sell ↔ Q = true) ∧ (v = Hold ↔ ¬ P = true ∧ ¬ Q = true) ∧
      (v = Buy ∨ v = Sell ∨ v = Hold) := by
  subst hv
  cases P <;> cases Q <;> first | exact (h rfl rfl).elim | decide

theorem crossRule_iff (ha : LtAsymm F) (a b pa pb : F) :
    (crossRule a b pa pb = Buy ↔ (pa <. pb) = true ∧ (b <. a) = true) ∧
    (crossRule a b pa pb = Sell ↔ (pb <. pa) = true ∧ (a <. b) = true) ∧
    (crossRule a b pa pb = Hold ↔ ¬ ((pa <. pb) = true ∧ (b <. a) = true) ∧
      ¬ ((pb <. pa) = true ∧ (a <. b) = true)) := by
  have h := sides_iff (P := a >. b && pa <. pb) (Q := a <. b && pa >. pb) (fun h1 h2 => by
    rw [Bool.and_eq_true] at h1 h2
    exact absurd h1.1 (by rw [show (a >. b) = (b <. a) from rfl, ha _ _ h2.1]; decide))
    (v := crossRule a b pa pb) rfl
  simp only [Bool.and_eq_true, GoFloat.gt] at h
  exact ⟨h.1.trans and_comm, h.2.1.trans and_comm,
    h.2.2.1.trans (and_congr (not_congr and_comm) (not_congr and_comm))⟩

/-- C41: from candle 1 on, a crossing strategy reports `Buy` exactly when line `a` was strictly below line `b`
at the previous candle and is strictly above it now, `Sell` exactly in the reverse case, and `Hold`
otherwise; comparisons with NaN are false. Partial: `Macd`, `Kdj` and `IchimokuCloud` ask for more
(`C41_macd_exact`, `C41_kdj_exact`, `C41_ichimoku_exact`). -/
theorem C41_crossing_partial (ha : LtAsymm F) {I : Strat F} {a b : I.D → Candle F → F} (h : Crossing I a b)
    {it : Item F} {d : List I.D} {s : List Side} (hd : I.toIndicator.data it = .ok d) (hs : I.signals it = .ok s)
    {i : Nat} {p v : I.D} {cp cv : Candle F} {side : Side} (hp : d[i]? = some p) (hv : d[i + 1]? = some v)
    (hcp : it.candles[i]? = some cp) (hcv : it.candles[i + 1]? = some cv) (hside : s[i + 1]? = some side) :
    (side = Buy ↔ (a p cp <. b p cp) = true ∧ (a v cv >. b v cv) = true) ∧
    (side = Sell ↔ (a p cp >. b p cp) = true ∧ (a v cv <. b v cv) = true) ∧
    (side = Hold ↔ ¬ ((a p cp <. b p cp) = true ∧ (a v cv >. b v cv) = true) ∧
      ¬ ((a p cp >. b p cp) = true ∧ (a v cv <. b v cv) = true)) := by
  obtain ⟨ok, G, f, hy, hf, hr⟩ := h.rule
  obtain ⟨x, hx⟩ := candles_tab it
  have hn : i + 1 < it.candles.length := (List.getElem?_eq_some_iff.mp hcv).1
  rw [(yields_inv hy hx hd).2] at hp hv
  rw [(signals_inv hf hx hs).2] at hside
  rw [hx] at hcp hcv
  rw [tab_getElem?_lt (by omega)] at hp hv hcp hcv hside
  cases hp; cases hv; cases hcp; cases hcv; cases hside
  rw [hr]
  exact crossRule_iff ha _ _ _ _

/-- C41 for `Macd`: besides the crossing of the two lines, both must be positive for `Buy` and negative for
`Sell`. -/
theorem C41_macd_exact (ha : LtAsymm F) (p q r : Int) {it : Item F} {d : List (MACD.Data F)} {s : List Side}
    (hd : (MACD p q r).data it = .ok d) (hs : (MACD p q r).signals it = .ok s) {i : Nat}
    {w v : MACD.Data F} {side : Side} (hw : d[i]? = some w) (hv : d[i + 1]? = some v)
    (hside : s[i + 1]? = some side) :
    (side = Buy ↔ (w.dif <. w.dea) = true ∧ (v.dif >. v.dea) = true ∧ (v.dif >. fl 0) = true ∧
      (v.dea >. fl 0) = true) ∧
    (side = Sell ↔ (w.dif >. w.dea) = true ∧ (v.dif <. v.dea) = true ∧ (v.dif <. fl 0) = true ∧
      (v.dea <. fl 0) = true) ∧
    (side = Buy ∨ side = Sell ∨ side = Hold) := by
  obtain ⟨x, hx⟩ := candles_tab it
  have e1 := (yields_inv (MACD.makes p q r).yields hx hd).2
  have hn : i + 1 < it.candles.length := by
    have := (List.getElem?_eq_some_iff.mp hv).1
    rwa [e1, tab_length] at this
  rw [e1, tab_getElem?_lt (by omega)] at hw hv
  rw [(signals_inv (MACD.signals p q r) hx hs).2, tab_getElem?_lt hn] at hside
  cases hw; cases hv; cases hside
  simp only [pairSide]
  generalize MACD.out p q r x i = w
  generalize MACD.out p q r x (i + 1) = v
  have re : ∀ {A B C D : Prop}, (((A ∧ B) ∧ C) ∧ D) ↔ D ∧ C ∧ A ∧ B :=
    fun {_ _ _ _} => ⟨fun h => ⟨h.2, h.1.2, h.1.1.1, h.1.1.2⟩, fun h => ⟨⟨⟨h.2.2.1, h.2.2.2⟩, h.2.1⟩, h.1⟩⟩
  have h := sides_iff (P := v.dif >. fl 0 && v.dea >. fl 0 && v.dif >. v.dea && w.dif <. w.dea) (Q := v.dif <. fl 0 && v.dea <. fl 0 && v.dif <. v.dea && w.dif >. w.dea) (fun h1 h2 => by
    simp only [Bool.and_eq_true, GoFloat.gt] at h1 h2
    have := ha _ _ h2.1.2
    rw [h1.1.2] at this
    exact absurd this (by decide)) (v := MACD.rule w v) rfl
  simp only [Bool.and_eq_true, GoFloat.gt] at h ⊢
  exact ⟨h.1.trans re, h.2.1.trans re, h.2.2.2⟩

/-- C41 for `Kdj`: both K and J must cross D at the same candle. -/
theorem C41_kdj_exact (ha : LtAsymm F) (p : Int) {it : Item F} {d : List (KDJ.Data F)} {s : List Side}
    (hd : (KDJ p).data it = .ok d) (hs : (KDJ p).signals it = .ok s) {i : Nat}
    {w v : KDJ.Data F} {side : Side} (hw : d[i]? = some w) (hv : d[i + 1]? = some v)
    (hside : s[i + 1]? = some side) :
    (side = Buy ↔ ((w.k <. w.d) = true ∧ (v.k >. v.d) = true) ∧ (w.j <. w.d) = true ∧ (v.j >. v.d) = true) ∧
    (side = Sell ↔ ((w.k >. w.d) = true ∧ (v.k <. v.d) = true) ∧ (w.j >. w.d) = true ∧ (v.j <. v.d) = true) ∧
    (side = Buy ∨ side = Sell ∨ side = Hold) := by
  obtain ⟨x, hx⟩ := candles_tab it
  have e1 := (yields_inv (KDJ.makes p).yields hx hd).2
  have hn : i + 1 < it.candles.length := by
    have := (List.getElem?_eq_some_iff.mp hv).1
    rwa [e1, tab_length] at this
  rw [e1, tab_getElem?_lt (by omega)] at hw hv
  rw [(signals_inv (KDJ.signals p) hx hs).2, tab_getElem?_lt hn] at hside
  cases hw; cases hv; cases hside
  simp only [pairSide]
  generalize KDJ.out p x i = w
  generalize KDJ.out p x (i + 1) = v
  have re : ∀ {A B C D : Prop}, (((A ∧ B) ∧ C) ∧ D) ↔ (C ∧ A) ∧ D ∧ B :=
    fun {_ _ _ _} => ⟨fun h => ⟨⟨h.1.2, h.1.1.1⟩, h.2, h.1.1.2⟩, fun h => ⟨⟨⟨h.1.2, h.2.2⟩, h.1.1⟩, h.2.1⟩⟩
  have h := sides_iff (P := v.k >. v.d && v.j >. v.d && w.k <. w.d && w.j <. w.d) (Q := v.k <. v.d && v.j <. v.d && w.k >. w.d && w.j >. w.d) (fun h1 h2 => by
    simp only [Bool.and_eq_true, GoFloat.gt] at h1 h2
    have := ha _ _ h2.1.1.1
    rw [h1.1.1.1] at this
    exact absurd this (by decide)) (v := KDJ.rule w v) rfl
  simp only [Bool.and_eq_true, GoFloat.gt] at h ⊢
  exact ⟨h.1.trans re, h.2.1.trans re, h.2.2.2⟩

/-- C41 for `IchimokuCloud`: from candle `convP` on, the close must cross both spans at the same candle. -/
theorem C41_ichimoku_exact (ha : LtAsymm F) (p q r : Int) {it : Item F} {d : List (Ichimoku.Data F)}
    {s : List Side} (hd : (Ichimoku p q r).data it = .ok d) (hs : (Ichimoku p q r).signals it = .ok s) {i : Nat}
    (hi : p ≤ i + 1) {w v : Ichimoku.Data F} {cw cv : Candle F} {side : Side} (hw : d[i]? = some w)
    (hv : d[i + 1]? = some v) (hcw : it.candles[i]? = some cw) (hcv : it.candles[i + 1]? = some cv)
    (hside : s[i + 1]? = some side) :
    (side = Buy ↔ ((cw.close <. w.spanA) = true ∧ (cv.close >. v.spanA) = true) ∧
      (cw.close <. w.spanB) = true ∧ (cv.close >. v.spanB) = true) ∧
    (side = Sell ↔ ((cw.close >. w.spanA) = true ∧ (cv.close <. v.spanA) = true) ∧
      (cw.close >. w.spanB) = true ∧ (cv.close <. v.spanB) = true) ∧
    (side = Buy ∨ side = Sell ∨ side = Hold) := by
  obtain ⟨x, hx⟩ := candles_tab it
  have hn : i + 1 < it.candles.length := (List.getElem?_eq_some_iff.mp hcv).1
  rw [(yields_inv (Ichimoku.appends p q r).yields hx hd).2, tab_getElem?_lt (by omega)] at hw hv
  rw [(signals_inv (Ichimoku.signals p q r) hx hs).2, tab_getElem?_lt hn, ichiSide, if_neg (by omega)] at hside
  rw [hx, tab_getElem?_lt (by omega)] at hcw hcv
  cases hw; cases hv; cases hcw; cases hcv; cases hside
  rw [Nat.add_sub_cancel]
  simp only [cl]
  generalize Ichimoku.out p q r x i = w
  generalize Ichimoku.out p q r x (i + 1) = v
  generalize (x i).close = c
  generalize (x (i + 1)).close = c'
  have re : ∀ {A B C D : Prop}, (((A ∧ B) ∧ C) ∧ D) ↔ (C ∧ A) ∧ D ∧ B :=
    fun {_ _ _ _} => ⟨fun h => ⟨⟨h.1.2, h.1.1.1⟩, h.2, h.1.1.2⟩, fun h => ⟨⟨⟨h.1.2, h.2.2⟩, h.1.1⟩, h.2.1⟩⟩
  have h := sides_iff (P := c' >. v.spanA && c' >. v.spanB && c <. w.spanA && c <. w.spanB) (Q := c' <. v.spanA && c' <. v.spanB && c >. w.spanA && c >. w.spanB) (fun h1 h2 => by
    simp only [Bool.and_eq_true, GoFloat.gt] at h1 h2
    have := ha _ _ h2.1.1.1
    rw [h1.1.1.1] at this
    exact absurd this (by decide)) (v := Ichimoku.rule c' c w v) rfl
  simp only [Bool.and_eq_true, GoFloat.gt] at h ⊢
  exact ⟨h.1.trans re, h.2.1.trans re, h.2.2.2⟩

theorem ltAsymm_XF {K : Type} [Field K] [LinearOrder K] [IsStrictOrderedRing K] : LtAsymm (XF K) := by
  intro a b h
  cases a <;> cases b <;> first | rfl | cases h | skip
  · rw [XF.lt_fin, decide_eq_true_iff] at h
    rw [XF.lt_fin, decide_eq_false_iff_not]
    exact not_lt.mpr h.le

/-- A series with the given closes. -/
def closes (l : List ℚ) : Item (XF ℚ) :=
  { exchange := "x", interval := 60, symbol := "s", code := "c",
    candles := l.map fun c => candleOf 0 c c c c 1 }

/-- Used in examples: the call succeeds and its result passes `p`. -/
def okAnd {α : Type} (g : Go α) (p : α → Bool) : Bool :=
  match g with
  | .ok a => p a
  | .error _ => false

theorem okAnd_iff {α : Type} {g : Go α} {p : α → Bool} : okAnd g p = true ↔ ∃ a, g = .ok a ∧ p a = true := by
  cases g with
  | ok a => exact ⟨fun h => ⟨a, rfl, h⟩, fun ⟨b, h, hp⟩ => (by cases h; exact hp)⟩
  | error e => exact ⟨fun h => (by cases h), fun ⟨b, h, _⟩ => (by cases h)⟩

/-- `C41_crossing_partial` applies, and at candle 2 its first case does. -/
example : Crossing (APO (F := XF ℚ) 1 3) (fun r _ => r.value) (fun _ _ => fl 0) ∧ LtAsymm (XF ℚ) ∧
    (∃ d, (APO 1 3).data (closes [4, 2, 5, 1, 7]) = .ok d ∧
      (d.length = 5 ∧ d[1]? = some (⟨0, .fin (-1)⟩ : Rec (XF ℚ)))) ∧
    ∃ s, (APO 1 3).signals (closes [4, 2, 5, 1, 7]) = .ok s ∧ s = [Buy, Hold, Buy, Sell, Buy] := by
  refine ⟨.apo 1 3, ltAsymm_XF, ?_, _, ?_, rfl⟩
  · obtain ⟨d, h, hd⟩ := okAnd_iff.mp (show okAnd ((APO 1 3).data (closes [4, 2, 5, 1, 7]))
      (fun (d : List (Rec (XF ℚ))) => d.length = 5 && d[1]? = some ⟨0, .fin (-1)⟩) = true by decide +kernel)
    exact ⟨d, h, by simpa using hd⟩
  · decide +kernel

/-- A series on which `Macd` sees DIF fall below DEA at candle 3 and reports `Hold`, since the lines are
positive. -/
theorem C41_macd_crossing_held : ∃ (d : List (MACD.Data (XF ℚ))) (s : List Side),
    (MACD 1 3 3).data (closes [2, 1, 3, 2, 3]) = .ok d ∧
    (MACD 1 3 3).signals (closes [2, 1, 3, 2, 3]) = .ok s ∧
    (∃ w v, d[2]? = some w ∧ d[3]? = some v ∧ (w.dif >. w.dea) = true ∧ (v.dif <. v.dea) = true) ∧
    s[3]? = some Hold := by
  obtain ⟨d, h, hd⟩ := okAnd_iff.mp (show okAnd ((MACD 1 3 3).data (closes [2, 1, 3, 2, 3]))
    (fun (d : List (MACD.Data (XF ℚ))) => match d with
      | [_, _, w, v, _] => w.dif >. w.dea && v.dif <. v.dea
      | _ => false) = true by decide +kernel)
  refine ⟨d, [Buy, Hold, Buy, Hold, Buy], h, by decide +kernel, ?_, rfl⟩
  split at hd
  · next _ _ w v _ => exact ⟨w, v, rfl, rfl, by simpa using hd⟩
  · cases hd

/-- `C41_kdj_exact` applies; the series has both signals. -/
example : (∃ d, (KDJ 3).data (closes [5, 1, 8, 2, 3, 9, 1, 5]) = .ok d) ∧
    (KDJ 3).signals (closes [5, 1, 8, 2, 3, 9, 1, 5]) = .ok [Buy, Hold, Hold, Sell, Hold, Buy, Sell, Hold] := by
  refine ⟨?_, by decide +kernel⟩
  obtain ⟨d, h, _⟩ := okAnd_iff.mp (show okAnd ((KDJ 3).data (closes [5, 1, 8, 2, 3, 9, 1, 5]))
    (fun (d : List (KDJ.Data (XF ℚ))) => d.length = 8) = true by decide +kernel)
  exact ⟨d, h⟩

/-- `C41_ichimoku_exact` applies; the series has both signals. -/
example : (∃ d, (Ichimoku 1 2 2).data (closes [1, 5, 2, 6]) = .ok d) ∧
    (Ichimoku 1 2 2).signals (closes [1, 5, 2, 6]) = .ok [Buy, Hold, Sell, Buy] := by
  refine ⟨?_, by decide +kernel⟩
  obtain ⟨d, h, _⟩ := okAnd_iff.mp (show okAnd ((Ichimoku 1 2 2).data (closes [1, 5, 2, 6]))
    (fun (d : List (Ichimoku.Data (XF ℚ))) => d.length = 4) = true by decide +kernel)
  exact ⟨d, h⟩

/-! ## C42 -/

theorem exists_switch (P : Nat → Prop) {i j : Nat} (hij : i ≤ j) (hi : P i) (hj : ¬ P j) :
    ∃ m, i ≤ m ∧ m < j ∧ P m ∧ ¬ P (m + 1) := by
  induction j with
  | zero => exact absurd hi (by rwa [Nat.le_zero.mp hij])
  | succ j ih =>
    by_cases h : P j
    · rcases Nat.lt_or_ge i (j + 1) with h1 | h1
      · exact ⟨j, by omega, by omega, h, hj⟩
      · rw [show i = j + 1 by omega] at hi; exact absurd hi hj
    · rcases Nat.lt_or_ge j i with h1 | h1
      · rw [show i = j + 1 by omega] at hi; exact absurd hi hj
      · obtain ⟨m, a, b, c⟩ := ih h1 h
        exact ⟨m, a, by omega, c⟩

/-- C42: between two `Buy` signals of a crossing strategy after the first candle there is a `Sell` signal, and
between two `Sell` signals a `Buy` signal. Partial: the lines must differ at every candle in between (and
none of their values be NaN); `C42_touch_refuted` and `C42_macd_refuted` show what happens otherwise. -/
theorem C42_alternation_partial (ha : LtAsymm F) {I : Strat F} {a b : I.D → Candle F → F} (h : Crossing I a b)
    {it : Item F} {d : List I.D} {s : List Side} (hd : I.toIndicator.data it = .ok d) (hs : I.signals it = .ok s)
    {i j : Nat} (h1 : 1 ≤ i) (hij : i < j)
    (hne : ∀ (k : Nat) (r : I.D) (c : Candle F), i < k → k < j → d[k]? = some r → it.candles[k]? = some c →
      (a r c <. b r c) = true ∨ (a r c >. b r c) = true) :
    (s[i]? = some Buy → s[j]? = some Buy → ∃ m, i < m ∧ m < j ∧ s[m]? = some Sell) ∧
    (s[i]? = some Sell → s[j]? = some Sell → ∃ m, i < m ∧ m < j ∧ s[m]? = some Buy) := by
  obtain ⟨ok, G, f, hy, hf, hr⟩ := h.rule
  obtain ⟨x, hx⟩ := candles_tab it
  have ed := (yields_inv hy hx hd).2
  have es := (signals_inv hf hx hs).2
  have hne' : ∀ k < it.candles.length, i < k → k < j → (a (G x k) (x k) <. b (G x k) (x k)) = true ∨
      (b (G x k) (x k) <. a (G x k) (x k)) = true := fun k hk h1 h2 =>
    hne k _ _ h1 h2 (by rw [ed, tab_getElem?_lt hk]) (by rw [hx]; exact tab_getElem?_lt hk)
  obtain ⟨i, rfl⟩ : ∃ k, i = k + 1 := ⟨i - 1, by omega⟩
  obtain ⟨j, rfl⟩ : ∃ k, j = k + 1 := ⟨j - 1, by omega⟩
  have len : ∀ {k : Nat} {v : Side}, s[k]? = some v → k < it.candles.length ∧ f x k = v := fun {k v} hk => by
    have hk' := (List.getElem?_eq_some_iff.mp hk).1
    rw [es, tab_length] at hk'
    rw [es, tab_getElem?_lt hk'] at hk
    exact ⟨hk', Option.some.inj hk⟩
  constructor
  · intro hi hj
    obtain ⟨hi, vi⟩ := len hi
    obtain ⟨hj, vj⟩ := len hj
    rw [hr, (crossRule_iff ha _ _ _ _).1] at vi vj
    obtain ⟨m, m1, m2, m3, m4⟩ := exists_switch (fun k => (b (G x k) (x k) <. a (G x k) (x k)) = true)
      (i := i + 1) (j := j) (by omega) vi.2 (by rw [ha _ _ vj.1]; decide)
    refine ⟨m + 1, by omega, by omega, ?_⟩
    rw [es, tab_getElem?_lt (by omega), hr, ((crossRule_iff ha _ _ _ _).2.1).2 ⟨m3, ?_⟩]
    exact (hne' (m + 1) (by omega) (by omega) (by omega)).resolve_right m4
  · intro hi hj
    obtain ⟨hi, vi⟩ := len hi
    obtain ⟨hj, vj⟩ := len hj
    rw [hr, (crossRule_iff ha _ _ _ _).2.1] at vi vj
    obtain ⟨m, m1, m2, m3, m4⟩ := exists_switch (fun k => (a (G x k) (x k) <. b (G x k) (x k)) = true)
      (i := i + 1) (j := j) (by omega) vi.2 (by rw [ha _ _ vj.1]; decide)
    refine ⟨m + 1, by omega, by omega, ?_⟩
    rw [es, tab_getElem?_lt (by omega), hr, ((crossRule_iff ha _ _ _ _).1).2 ⟨m3, ?_⟩]
    exact (hne' (m + 1) (by omega) (by omega) (by omega)).resolve_left m4

/-- The hypotheses of `C42_alternation_partial` with `i = 2`, `j = 4` on a series with `Buy` at both. -/
example : Crossing (APO (F := XF ℚ) 1 3) (fun r _ => r.value) (fun _ _ => fl 0) ∧
    (APO 1 3).signals (closes [4, 2, 5, 1, 7]) = .ok [Buy, Hold, Buy, Sell, Buy] ∧
    ∃ d, (APO 1 3).data (closes [4, 2, 5, 1, 7]) = .ok d ∧
      ∀ (k : Nat) (r : Rec (XF ℚ)), 2 < k → k < 4 → d[k]? = some r →
        (r.value <. fl 0) = true ∨ (r.value >. fl 0) = true := by
  refine ⟨.apo 1 3, by decide +kernel, ?_⟩
  obtain ⟨d, h, hd⟩ := okAnd_iff.mp (show okAnd ((APO 1 3).data (closes [4, 2, 5, 1, 7]))
    (fun (d : List (Rec (XF ℚ))) => d[3]? = some ⟨0, .fin (-3 / 2)⟩) = true by decide +kernel)
  refine ⟨d, h, fun k r h1 h2 hr => ?_⟩
  obtain rfl : k = 3 := by omega
  have hd : d[3]? = some (⟨0, .fin (-3 / 2)⟩ : Rec (XF ℚ)) := by simpa using hd
  have hr : d[3]? = some r := hr
  rw [hd] at hr
  cases hr
  exact Or.inl (by decide +kernel)

/-- C42 refuted in general: when the lines touch, a second `Buy` can follow with no `Sell` between. -/
theorem C42_touch_refuted : ∃ (it : Item (XF ℚ)) (s : List Side), (APO 1 3).signals it = .ok s ∧
    s[2]? = some Buy ∧ s[5]? = some Buy ∧ ∀ m, 2 < m → m < 5 → s[m]? ≠ some Sell := by
  refine ⟨closes [4, 2, 5, 4, 2, 5], [Buy, Hold, Buy, Hold, Hold, Buy], by decide +kernel, rfl, rfl, ?_⟩
  intro m h1 h2
  obtain rfl | rfl : m = 3 ∨ m = 4 := by omega
  all_goals decide

/-- C42 refuted for `Macd` even when DIF and DEA differ at every candle after the first: the zero-line
condition suppresses the `Sell` between two `Buy`s. -/
theorem C42_macd_refuted : ∃ (it : Item (XF ℚ)) (d : List (MACD.Data (XF ℚ))) (s : List Side),
    (MACD 1 3 3).data it = .ok d ∧ (MACD 1 3 3).signals it = .ok s ∧
    (∀ r ∈ d.tail, (r.dif <. r.dea || r.dif >. r.dea) = true) ∧
    s[2]? = some Buy ∧ s[4]? = some Buy ∧ ∀ m, 2 < m → m < 4 → s[m]? ≠ some Sell := by
  obtain ⟨d, h, hd⟩ := okAnd_iff.mp (show okAnd ((MACD 1 3 3).data (closes [2, 1, 3, 2, 3]))
    (fun (d : List (MACD.Data (XF ℚ))) => d.tail.all fun r => r.dif <. r.dea || r.dif >. r.dea) = true by
      decide +kernel)
  refine ⟨closes [2, 1, 3, 2, 3], d, [Buy, Hold, Buy, Hold, Buy], h, by decide +kernel, List.all_eq_true.mp hd,
    rfl, rfl, ?_⟩
  intro m h1 h2
  obtain rfl : m = 3 := by omega
  decide

end Verif.Props
