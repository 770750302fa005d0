import Verif.Props.Crossing
import Verif.Props.Lines

/-!
# Strategies with thresholds and strategies with memory (C86, C89)
-/

set_option linter.unusedSectionVars false

namespace Verif.Props
open Verif Verif.Klines Verif.Ta Verif.Ind GoFloat

variable {F : Type} [GoFloat F]

/-! ## C86 -/

/-- Strategies that buy when their value falls through `lo` and sell when it rises through `hi`. -/
inductive Threshold : (I : Strat F) → (val : I.D → F) → (lo hi : Int) → Prop
  | williams (p : Int) : Threshold (Williams p) (fun r => r.value) (-80) (-20)
  | cci (p q : Int) : Threshold (CCIi p q) (fun r => r.value) (-100) 100
  | aicoin (p : Int) : Threshold (AiCCI p) (fun r => r.value) (-100) 100

theorem sides_iff₀ {A B : Bool} {v : Side} (h : v = if A then Buy else if B then Sell else Hold) :
    (v = Buy ↔ A = true) ∧ (v = Sell ↔ B = true ∧ A = false) ∧ (v = Hold ↔ A = false ∧ B = false) := by
  subst h
  cases A <;> cases B <;> decide

theorem sides_pair {a b c e : Bool} {v : Side} (h : v = if a && b then Buy else if c && e then Sell else Hold) :
    (v = Buy ↔ b = true ∧ a = true) ∧ (v = Sell ↔ (e = true ∧ c = true) ∧ ¬ (b = true ∧ a = true)) ∧
    (v = Hold ↔ ¬ (b = true ∧ a = true) ∧ ¬ (e = true ∧ c = true)) := by
  subst h
  cases a <;> cases b <;> cases c <;> cases e <;> decide

theorem Threshold.rule {I : Strat F} {val : I.D → F} {lo hi : Int} (h : Threshold I val lo hi) :
    ∃ ok G f, Yields I.toIndicator ok G ∧ Signals I ok f ∧ ∀ x k, f x (k + 1) =
      if val (G x (k + 1)) <. fl lo && val (G x k) >. fl lo then Buy
      else if val (G x (k + 1)) >. fl hi && val (G x k) <. fl hi then Sell else Hold := by
  cases h with
  | williams p => exact ⟨_, _, _, (Williams.appends p).yields, Williams.signals p, fun _ _ => rfl⟩
  | cci p q => exact ⟨_, _, _, (CCIi.appends p q).yields, CCIi.signals p q, fun _ _ => rfl⟩
  | aicoin p => exact ⟨_, _, _, (AiCCI.appends p).yields, AiCCI.signals p, fun _ _ => rfl⟩

/-- Reads two neighbouring records and the signal between them. -/
theorem pair_at {I : Strat F} {ok : Nat → Prop} {G : (Nat → Candle F) → Nat → I.D} {f : (Nat → Candle F) → Nat → Side}
    (hy : Yields I.toIndicator ok G) (hf : Signals I ok f) {it : Item F} {d : List I.D} {s : List Side}
    (hd : I.toIndicator.data it = .ok d) (hs : I.signals it = .ok s) {i : Nat} {p v : I.D} {side : Side}
    (hp : d[i]? = some p) (hv : d[i + 1]? = some v) (hside : s[i + 1]? = some side) :
    ∃ x, p = G x i ∧ v = G x (i + 1) ∧ side = f x (i + 1) := by
  obtain ⟨x, hx⟩ := candles_tab it
  have e1 := (yields_inv hy hx hd).2
  have hn : i + 1 < it.candles.length := by
    have := (List.getElem?_eq_some_iff.mp hv).1
    rwa [e1, tab_length] at this
  rw [e1, tab_getElem?_lt (by omega)] at hp hv
  rw [(signals_inv hf hx hs).2, tab_getElem?_lt hn] at hside
  cases hp; cases hv; cases hside
  exact ⟨x, rfl, rfl, rfl⟩

/-- **C86.** From candle 1 on, WilliamsR, Cci and AiCoinCCI report `Buy` exactly when the value was
strictly above the lower threshold and now is strictly below it, `Sell` exactly when it was strictly below the upper
threshold and now is strictly above it, `Hold` otherwise. (The clause "and no `Buy`" is never needed when `<` is an order.)
In particular leaving the extreme zone gives no signal, and a value that stops exactly on the threshold and goes on at
the next candle gives none either. -/
theorem C86_threshold {I : Strat F} {val : I.D → F} {lo hi : Int} (h : Threshold I val lo hi) {it : Item F}
    {d : List I.D} {s : List Side} (hd : I.toIndicator.data it = .ok d) (hs : I.signals it = .ok s) {i : Nat} {p v : I.D}
    {side : Side} (hp : d[i]? = some p) (hv : d[i + 1]? = some v) (hside : s[i + 1]? = some side) :
    let fell := (val p >. fl lo) = true ∧ (val v <. fl lo) = true
    let rose := (val p <. fl hi) = true ∧ (val v >. fl hi) = true
    (side = Buy ↔ fell) ∧ (side = Sell ↔ rose ∧ ¬ fell) ∧ (side = Hold ↔ ¬ fell ∧ ¬ rose) := by
  obtain ⟨ok, G, f, hy, hf, hr⟩ := h.rule
  obtain ⟨x, rfl, rfl, rfl⟩ := pair_at hy hf hd hs hp hv hside
  exact sides_pair (hr x i)

/-- **C86**, MoneyFlowIndex: thresholds 10 and 90. -/
theorem C86_mfi {M : Type} [GoMath M] (q : Int) {it : Item M} {d : List (Rec M)} {s : List Side}
    (hd : (MFI q).data it = .ok d) (hs : (MFI q).signals it = .ok s) {i : Nat} {p v : Rec M} {side : Side}
    (hp : d[i]? = some p) (hv : d[i + 1]? = some v) (hside : s[i + 1]? = some side) :
    let fell := (p.value >. fl 10) = true ∧ (v.value <. fl 10) = true
    let rose := (p.value <. fl 90) = true ∧ (v.value >. fl 90) = true
    (side = Buy ↔ fell) ∧ (side = Sell ↔ rose ∧ ¬ fell) ∧ (side = Hold ↔ ¬ fell ∧ ¬ rose) := by
  obtain ⟨x, rfl, rfl, rfl⟩ := pair_at (I := MFI q) (MFI.appends q).yields (MFI.signals q) hd hs hp hv hside
  exact sides_pair rfl

/-- **C86**, Rsi: `Buy` exactly when the value falls through 20, `Sell` exactly when it falls through 80 without also
falling through 20: this strategy sells on leaving the overbought zone, but buys on entering the oversold zone. -/
theorem C86_rsi (q : Int) {it : Item F} {d : List (Rec F)} {s : List Side} (hd : (RSI q).data it = .ok d)
    (hs : (RSI q).signals it = .ok s) {i : Nat} {p v : Rec F} {side : Side} (hp : d[i]? = some p)
    (hv : d[i + 1]? = some v) (hside : s[i + 1]? = some side) :
    let fell := fun t : Int => (p.value >. fl t) = true ∧ (v.value <. fl t) = true
    (side = Buy ↔ fell 20) ∧ (side = Sell ↔ fell 80 ∧ ¬ fell 20) ∧ (side = Hold ↔ ¬ fell 20 ∧ ¬ fell 80) := by
  obtain ⟨x, rfl, rfl, rfl⟩ := pair_at (I := RSI q) (RSI.appends q).yields (RSI.signals q) hd hs hp hv hside
  exact sides_pair rfl

/-- **C86**, ProjectionOscillator: the signal compares the two lines at the same candle; it repeats for as long as one line
stays above the other. -/
theorem C86_projection (a b : Int) {it : Item F} {d : List (Projection.Data F)} {s : List Side}
    (hd : (Projection a b).data it = .ok d) (hs : (Projection a b).signals it = .ok s) {i : Nat} {p v : Projection.Data F}
    {side : Side} (hp : d[i]? = some p) (hv : d[i + 1]? = some v) (hside : s[i + 1]? = some side) :
    (side = Buy ↔ (v.po >. v.spo) = true) ∧ (side = Sell ↔ (v.po <. v.spo) = true ∧ ¬ (v.po >. v.spo) = true) ∧
    (side = Hold ↔ ¬ (v.po >. v.spo) = true ∧ ¬ (v.po <. v.spo) = true) := by
  obtain ⟨x, rfl, rfl, rfl⟩ := pair_at (I := Projection a b) (Projection.appends a b).yields (Projection.signals a b)
    hd hs hp hv hside
  have := sides_iff₀ (v := Projection.rule (Projection.out a b x i) (Projection.out a b x (i + 1))) rfl
  simp only [← Bool.not_eq_true] at this
  exact this

/-- **C86**, EMAVegas: the first eleven signals are `Buy` whatever the market does. From candle 11 on `Buy` exactly when
the candle is bullish, the value line lies above the first short line, both short lines lie above both long lines and in
one of the ten candles before this one the second short line crossed above the second long line; `Sell` exactly in the
mirrored case (when not `Buy`). -/
theorem C86_vegas (p s1 s2 l1 l2 : Int) {it : Item F} {d : List (Vegas.Data F)} {s : List Side}
    (hd : (Vegas p s1 s2 l1 l2).data it = .ok d) (hs : (Vegas p s1 s2 l1 l2).signals it = .ok s) {i : Nat}
    {v : Vegas.Data F} {c : Candle F} {side : Side} (hv : d[i]? = some v) (hc : it.candles[i]? = some c)
    (hside : s[i]? = some side) :
    (i < 11 → side = Buy) ∧
    (11 ≤ i →
      let up := (v.value >. v.short1) = true ∧ (v.short1 >. v.long1) = true ∧ (v.short1 >. v.long2) = true ∧
        (v.short2 >. v.long1) = true ∧ (v.short2 >. v.long2) = true ∧ c.isBull = true ∧
        ∃ j a b, i ≤ j + 10 ∧ j < i ∧ d[j - 1]? = some a ∧ d[j]? = some b ∧
          (a.short2 <. a.long2) = true ∧ (b.short2 >. b.long2) = true
      let down := (v.value <. v.short1) = true ∧ (v.short1 <. v.long1) = true ∧ (v.short1 <. v.long2) = true ∧
        (v.short2 <. v.long1) = true ∧ (v.short2 <. v.long2) = true ∧ c.isBull = false ∧
        ∃ j a b, i ≤ j + 10 ∧ j < i ∧ d[j - 1]? = some a ∧ d[j]? = some b ∧
          (a.short2 >. a.long2) = true ∧ (b.short2 <. b.long2) = true
      (side = Buy ↔ up) ∧ (side = Sell ↔ down) ∧ (side = Hold ↔ ¬ up ∧ ¬ down)) := by
  obtain ⟨x, hx⟩ := candles_tab it
  have e1 := (yields_inv (Vegas.makes p s1 s2 l1 l2).yields hx hd).2
  have hn : i < it.candles.length := (List.getElem?_eq_some_iff.mp hc).1
  rw [hx, tab_getElem?_lt hn] at hc
  rw [e1, tab_getElem?_lt hn] at hv
  rw [(signals_inv (Vegas.signals p s1 s2 l1 l2) hx hs).2, tab_getElem?_lt hn] at hside
  cases hv; cases hc; cases hside
  refine ⟨fun h => by rw [vegasSide, if_pos h], fun h => ?_⟩
  intro up down
  have hup : vegasUp (Vegas.out p s1 s2 l1 l2 x) i = true ↔ ∃ j a b, i ≤ j + 10 ∧ j < i ∧ d[j - 1]? = some a ∧
      d[j]? = some b ∧ (a.short2 <. a.long2) = true ∧ (b.short2 >. b.long2) = true := by
    rw [vegasUp, List.any_eq_true, e1]
    constructor
    · rintro ⟨j, hj, hh⟩
      rw [List.mem_range] at hj
      rw [Bool.and_eq_true] at hh
      exact ⟨i - 10 + j, _, _, by omega, by omega, tab_getElem?_lt (by omega), tab_getElem?_lt (by omega), hh.2, hh.1⟩
    · rintro ⟨j, a, b, h1, h2, ha, hb, h3, h4⟩
      rw [tab_getElem?_lt (by omega)] at ha hb
      cases ha; cases hb
      refine ⟨j - (i - 10), List.mem_range.mpr (by omega), ?_⟩
      rw [show i - 10 + (j - (i - 10)) = j by omega, h3, h4]
      rfl
  have hdown : vegasDown (Vegas.out p s1 s2 l1 l2 x) i = true ↔ ∃ j a b, i ≤ j + 10 ∧ j < i ∧ d[j - 1]? = some a ∧
      d[j]? = some b ∧ (a.short2 >. a.long2) = true ∧ (b.short2 <. b.long2) = true := by
    rw [vegasDown, List.any_eq_true, e1]
    constructor
    · rintro ⟨j, hj, hh⟩
      rw [List.mem_range] at hj
      rw [Bool.and_eq_true] at hh
      exact ⟨i - 10 + j, _, _, by omega, by omega, tab_getElem?_lt (by omega), tab_getElem?_lt (by omega), hh.2, hh.1⟩
    · rintro ⟨j, a, b, h1, h2, ha, hb, h3, h4⟩
      rw [tab_getElem?_lt (by omega)] at ha hb
      cases ha; cases hb
      refine ⟨j - (i - 10), List.mem_range.mpr (by omega), ?_⟩
      rw [show i - 10 + (j - (i - 10)) = j by omega, h3, h4]
      rfl
  have hside : vegasSide (Vegas.out p s1 s2 l1 l2 x) x i = Vegas.rule (Vegas.out p s1 s2 l1 l2 x i) (bu x i)
      (vegasUp (Vegas.out p s1 s2 l1 l2 x) i) (vegasDown (Vegas.out p s1 s2 l1 l2 x) i) := by
    rw [vegasSide, if_neg (by omega)]
  rw [hside]
  generalize hA : vegasUp (Vegas.out p s1 s2 l1 l2 x) i = A at hup ⊢
  generalize hB : vegasDown (Vegas.out p s1 s2 l1 l2 x) i = B at hdown ⊢
  have hr := sides_iff₀ (v := Vegas.rule (Vegas.out p s1 s2 l1 l2 x i) (bu x i) A B) rfl
  simp only [← Bool.not_eq_true, Bool.and_eq_true, hup, hdown, and_assoc] at hr
  rw [show ((!bu x i) = true) = ((x i).isBull = false) by rw [Bool.not_eq_true']; rfl] at hr
  obtain ⟨h1, h2, h3⟩ := hr
  have hx : up → ¬ down := fun h h' => absurd (h'.2.2.2.2.2.1) (by rw [h.2.2.2.2.2.1]; decide)
  have h2' : Vegas.rule (Vegas.out p s1 s2 l1 l2 x i) (bu x i) A B = Sell ↔ down ∧ ¬ up := by
    exact h2.trans ⟨fun ⟨a1, a2, a3, a4, a5, a6, a7, n⟩ => ⟨⟨a1, a2, a3, a4, a5, a6, a7⟩, n⟩,
      fun ⟨⟨a1, a2, a3, a4, a5, a6, a7⟩, n⟩ => ⟨a1, a2, a3, a4, a5, a6, a7, n⟩⟩
  exact ⟨h1, h2'.trans ⟨fun h => h.1, fun h => ⟨h, fun h' => hx h' h⟩⟩, h3⟩

/-! ## C89: TraderXO -/

/-- What the loop of TraderXO knows after candle `k`. -/
theorem xo_state (g : Nat → XO.Data F) (ha : LtAsymm F) (k : Nat) :
    let s := (xoF g k).1
    0 ≤ s.countBuy ∧ 0 ≤ s.countSell ∧
    (s.countBuy = 0 ↔ ∀ j, 1 ≤ j → j ≤ k → ((g j).fast >. (g j).slow) = true →
      ∃ m, j < m ∧ m ≤ k ∧ ((g m).fast <. (g m).slow) = true) ∧
    (s.countSell = 0 ↔ ∀ j, 1 ≤ j → j ≤ k → ((g j).fast <. (g j).slow) = true →
      ∃ m, j < m ∧ m ≤ k ∧ ((g m).fast >. (g m).slow) = true) ∧
    (s.buyPrev = true → s.countBuy ≠ 0) ∧ (s.sellPrev = true → s.countSell ≠ 0) := by
  induction k with
  | zero =>
    refine ⟨le_refl _, le_refl _, ⟨fun _ j h1 h2 => by omega, fun _ => rfl⟩, ⟨fun _ j h1 h2 => by omega, fun _ => rfl⟩,
      fun h => ?_, fun h => ?_⟩
    · exact absurd h (by simp [xoF])
    · exact absurd h (by simp [xoF])
  | succ k ih =>
    obtain ⟨i1, i2, i3, i4, i5, i6⟩ := ih
    cases hb : ((g (k + 1)).fast >. (g (k + 1)).slow)
    · cases hs : ((g (k + 1)).fast <. (g (k + 1)).slow)
      · simp only [xoF, XO.step, hb, hs, Bool.false_eq_true, if_false]
        refine ⟨i1, i2, i3.trans ⟨fun h j h1 h2 h3 => ?_, fun h j h1 h2 h3 => ?_⟩,
          i4.trans ⟨fun h j h1 h2 h3 => ?_, fun h j h1 h2 h3 => ?_⟩, fun h => h.elim, fun h => h.elim⟩
        · have hj : j ≠ k + 1 := by rintro rfl; rw [hb] at h3; cases h3
          obtain ⟨m, m1, m2, m3⟩ := h j h1 (by omega) h3
          exact ⟨m, m1, by omega, m3⟩
        · obtain ⟨m, m1, m2, m3⟩ := h j h1 (by omega) h3
          have hm : m ≠ k + 1 := by rintro rfl; rw [hs] at m3; cases m3
          exact ⟨m, m1, by omega, m3⟩
        · have hj : j ≠ k + 1 := by rintro rfl; rw [hs] at h3; cases h3
          obtain ⟨m, m1, m2, m3⟩ := h j h1 (by omega) h3
          exact ⟨m, m1, by omega, m3⟩
        · obtain ⟨m, m1, m2, m3⟩ := h j h1 (by omega) h3
          have hm : m ≠ k + 1 := by rintro rfl; rw [hb] at m3; cases m3
          exact ⟨m, m1, by omega, m3⟩
      · simp only [xoF, XO.step, hb, hs, Bool.false_eq_true, if_false, if_true]
        refine ⟨le_refl _, by omega, ⟨fun _ j h1 h2 h3 => ?_, fun _ => trivial⟩,
          ⟨fun h => by omega, fun h => ?_⟩, fun h => h.elim, fun _ => by omega⟩
        · have hj : j ≠ k + 1 := by rintro rfl; rw [hb] at h3; cases h3
          exact ⟨k + 1, by omega, le_refl _, hs⟩
        · obtain ⟨m, m1, m2, -⟩ := h (k + 1) (by omega) (le_refl _) hs
          omega
    · have hs : ((g (k + 1)).fast <. (g (k + 1)).slow) = false := ha _ _ hb
      simp only [xoF, XO.step, hb, hs, Bool.false_eq_true, if_false, if_true]
      refine ⟨by omega, le_refl _, ⟨fun h => by omega, fun h => ?_⟩, ⟨fun _ j h1 h2 h3 => ?_, fun _ => trivial⟩,
        fun _ => by omega, fun h => h.elim⟩
      · obtain ⟨m, m1, m2, -⟩ := h (k + 1) (by omega) (le_refl _) hb
        omega
      · have hj : j ≠ k + 1 := by rintro rfl; rw [hs] at h3; cases h3
        exact ⟨k + 1, by omega, le_refl _, hb⟩

theorem xo_side (g : Nat → XO.Data F) (ha : LtAsymm F) (k : Nat) :
    ((xoF g (k + 1)).2 = Buy ↔ ((g (k + 1)).fast >. (g (k + 1)).slow) = true ∧ (xoF g k).1.countBuy = 0) ∧
    ((xoF g (k + 1)).2 = Sell ↔ ((g (k + 1)).fast <. (g (k + 1)).slow) = true ∧ (xoF g k).1.countSell = 0) ∧
    ((xoF g (k + 1)).2 = Buy ∨ (xoF g (k + 1)).2 = Sell ∨ (xoF g (k + 1)).2 = Hold) := by
  obtain ⟨i1, i2, -, -, i5, i6⟩ := xo_state g ha k
  rw [xoF]
  generalize (xoF g k).1 = st at *
  obtain ⟨cb, cs, bp, sp⟩ := st
  simp only at i1 i2 i5 i6 ⊢
  cases hb : ((g (k + 1)).fast >. (g (k + 1)).slow)
  · cases hs : ((g (k + 1)).fast <. (g (k + 1)).slow)
    · simp only [XO.step, hb, hs, Bool.false_eq_true, if_false, Bool.and_false, Bool.false_and, false_and]
      decide
    · simp only [XO.step, hb, hs, Bool.false_eq_true, if_false, if_true, Bool.and_false, Bool.false_and, false_and, true_and,
        Bool.and_true]
      by_cases h0 : cs = 0
      · have : sp = false := by cases sp <;> simp_all
        subst h0 this
        decide
      · have : ¬ cs + 1 < 2 := by omega
        simp only [this, h0, decide_false, Bool.and_false, Bool.false_and, Bool.false_eq_true, if_false, iff_false]
        decide
  · have hs : ((g (k + 1)).fast <. (g (k + 1)).slow) = false := ha _ _ hb
    simp only [XO.step, hb, hs, Bool.false_eq_true, if_false, if_true, Bool.and_false, Bool.false_and, false_and, true_and,
        Bool.and_true]
    by_cases h0 : cb = 0
    · have : bp = false := by cases bp <;> simp_all
      subst h0 this
      decide
    · have : ¬ cb + 1 < 2 := by omega
      simp only [this, h0, decide_false, Bool.false_and, Bool.false_eq_true, if_false, iff_false]
      decide

/-- The fast line is above (below) the slow one at candle `j`. -/
def XoUp (d : List (XO.Data F)) (j : Nat) : Prop := ∃ r, d[j]? = some r ∧ (r.fast >. r.slow) = true
@[inherit_doc XoUp] def XoDown (d : List (XO.Data F)) (j : Nat) : Prop := ∃ r, d[j]? = some r ∧ (r.fast <. r.slow) = true

/-- **C89**, TraderXO: the first signal is `Hold`. Later `Buy` exactly when the fast average is above the slow one and, after
any earlier candle where it was so (the first candle not counted), there was one in between where it was below;
`Sell` in the mirrored case. Candles where the averages are equal do not interrupt a phase. -/
theorem C89_trader_xo (ha : LtAsymm F) (p q : Int) {it : Item F} {d : List (XO.Data F)} {s : List Side}
    (hd : (XO p q).data it = .ok d) (hs : (XO p q).signals it = .ok s) {i : Nat} {side : Side}
    (hside : s[i]? = some side) :
    (i = 0 → side = Hold) ∧
    (1 ≤ i → (side = Buy ↔ XoUp d i ∧ ∀ j, 1 ≤ j → j < i → XoUp d j → ∃ m, j < m ∧ m < i ∧ XoDown d m)) ∧
    (1 ≤ i → (side = Sell ↔ XoDown d i ∧ ∀ j, 1 ≤ j → j < i → XoDown d j → ∃ m, j < m ∧ m < i ∧ XoUp d m)) ∧
    (side = Buy ∨ side = Sell ∨ side = Hold) := by
  obtain ⟨x, hx⟩ := candles_tab it
  have e1 := (yields_inv (XO.makes p q).yields hx hd).2
  have e2 := (signals_inv (XO.signals p q) hx hs).2
  have hn : i < it.candles.length := by
    have := (List.getElem?_eq_some_iff.mp hside).1
    rwa [e2, tab_length] at this
  rw [e2, tab_getElem?_lt hn] at hside
  cases hside
  have hu : ∀ j ≤ i, XoUp d j ↔ ((XO.out p q x j).fast >. (XO.out p q x j).slow) = true := by
    intro j hj
    rw [XoUp, e1, tab_getElem?_lt (by omega)]
    simp
  have hdn : ∀ j ≤ i, XoDown d j ↔ ((XO.out p q x j).fast <. (XO.out p q x j).slow) = true := by
    intro j hj
    rw [XoDown, e1, tab_getElem?_lt (by omega)]
    simp
  generalize XO.out p q x = g at *
  cases i with
  | zero => exact ⟨fun _ => rfl, fun h => by omega, fun h => by omega, Or.inr (Or.inr rfl)⟩
  | succ k =>
    obtain ⟨h1, h2, h3⟩ := xo_side g ha k
    obtain ⟨-, -, c1, c2, -, -⟩ := xo_state g ha k
    refine ⟨fun h => by omega, fun _ => h1.trans ?_, fun _ => h2.trans ?_, h3⟩
    · rw [c1, hu _ (le_refl _)]
      refine and_congr_right fun _ => ⟨fun h j j1 j2 j3 => ?_, fun h j j1 j2 j3 => ?_⟩
      · obtain ⟨m, m1, m2, m3⟩ := h j j1 (by omega) ((hu j (by omega)).mp j3)
        exact ⟨m, m1, by omega, (hdn m (by omega)).mpr m3⟩
      · obtain ⟨m, m1, m2, m3⟩ := h j j1 (by omega) ((hu j (by omega)).mpr j3)
        exact ⟨m, m1, by omega, (hdn m (by omega)).mp m3⟩
    · rw [c2, hdn _ (le_refl _)]
      refine and_congr_right fun _ => ⟨fun h j j1 j2 j3 => ?_, fun h j j1 j2 j3 => ?_⟩
      · obtain ⟨m, m1, m2, m3⟩ := h j j1 (by omega) ((hdn j (by omega)).mp j3)
        exact ⟨m, m1, by omega, (hu m (by omega)).mpr m3⟩
      · obtain ⟨m, m1, m2, m3⟩ := h j j1 (by omega) ((hdn j (by omega)).mpr j3)
        exact ⟨m, m1, by omega, (hu m (by omega)).mp m3⟩

/-- **C89**, TraderXO: between two buys there is a sell and between two sells a buy. -/
theorem C89_trader_xo_alternates (ha : LtAsymm F) (p q : Int) {it : Item F} {s : List Side}
    (hs : (XO p q).signals it = .ok s) {i j : Nat} (hij : i < j) :
    (s[i]? = some Buy → s[j]? = some Buy → ∃ m, i < m ∧ m < j ∧ s[m]? = some Sell) ∧
    (s[i]? = some Sell → s[j]? = some Sell → ∃ m, i < m ∧ m < j ∧ s[m]? = some Buy) := by
  obtain ⟨x, hx⟩ := candles_tab it
  have hd := ((XO.makes p q).yields it _ x hx).1 trivial
  have hl : s.length = it.candles.length := by rw [(signals_inv (XO.signals p q) hx hs).2, tab_length]
  have key := fun {i : Nat} {side : Side} (h : s[i]? = some side) => C89_trader_xo ha p q hd hs h
  generalize tab it.candles.length (XO.out p q x) = d at *
  have pos : ∀ {i : Nat} {side : Side}, s[i]? = some side → side ≠ Hold → 1 ≤ i := by
    intro i side h hne
    rcases Nat.eq_zero_or_pos i with h0 | h0
    · exact absurd ((key h).1 h0) hne
    · exact h0
  refine ⟨fun h1 h2 => ?_, fun h1 h2 => ?_⟩
  · have p1 := pos h1 (by decide)
    have b1 := ((key h1).2.1 p1).mp rfl
    have b2 := ((key h2).2.1 (by omega)).mp rfl
    obtain ⟨m, m1, m2, m3⟩ := b2.2 i p1 hij b1.1
    have ex : ∃ m, i < m ∧ XoDown d m := ⟨m, m1, m3⟩
    classical
    have hmin : Nat.find ex ≤ m := Nat.find_min' ex ⟨m1, m3⟩
    obtain ⟨f1, f2⟩ := Nat.find_spec ex
    have hlt : Nat.find ex < s.length := by
      have := (List.getElem?_eq_some_iff.mp h2).1
      omega
    refine ⟨Nat.find ex, f1, by omega, ?_⟩
    have hg := List.getElem?_eq_getElem hlt
    rw [hg]
    refine congrArg some (((key hg).2.2.1 (by omega)).mpr ⟨f2, fun a a1 a2 a3 => ?_⟩)
    rcases Nat.lt_or_ge i a with h | h
    · exact absurd ⟨h, a3⟩ (Nat.find_min ex a2)
    · have hne : a ≠ i := by
        rintro rfl
        obtain ⟨r, hr, hr'⟩ := b1.1
        obtain ⟨r', hq, hq'⟩ := a3
        rw [hr] at hq
        cases hq
        rw [ha _ _ hr'] at hq'
        cases hq'
      exact ⟨i, by omega, f1, b1.1⟩
  · have p1 := pos h1 (by decide)
    have b1 := ((key h1).2.2.1 p1).mp rfl
    have b2 := ((key h2).2.2.1 (by omega)).mp rfl
    obtain ⟨m, m1, m2, m3⟩ := b2.2 i p1 hij b1.1
    have ex : ∃ m, i < m ∧ XoUp d m := ⟨m, m1, m3⟩
    classical
    have hmin : Nat.find ex ≤ m := Nat.find_min' ex ⟨m1, m3⟩
    obtain ⟨f1, f2⟩ := Nat.find_spec ex
    have hlt : Nat.find ex < s.length := by
      have := (List.getElem?_eq_some_iff.mp h2).1
      omega
    refine ⟨Nat.find ex, f1, by omega, ?_⟩
    have hg := List.getElem?_eq_getElem hlt
    rw [hg]
    refine congrArg some (((key hg).2.1 (by omega)).mpr ⟨f2, fun a a1 a2 a3 => ?_⟩)
    rcases Nat.lt_or_ge i a with h | h
    · exact absurd ⟨h, a3⟩ (Nat.find_min ex a2)
    · have hne : a ≠ i := by
        rintro rfl
        obtain ⟨r, hr, hr'⟩ := b1.1
        obtain ⟨r', hq, hq'⟩ := a3
        rw [hr] at hq
        cases hq
        rw [ha _ _ hq'] at hr'
        cases hr'
      exact ⟨i, by omega, f1, b1.1⟩

example : (XO 1 3).signals (barItem (flatBars [(1 : ℚ), 2, 3, 1, 1, 5])) = .ok [Hold, Buy, Hold, Sell, Hold, Buy] := by
  decide +kernel

example : (Williams 3).signals (barItem (flatBars [(5 : ℚ), 6, 1, 4, 9, 2])) = .ok [Buy, Hold, Buy, Hold, Sell, Buy] := by
  decide +kernel

/-- A fall from above 80 to below 20 in one candle: `Buy`, no `Sell`. -/
example : (RSI 2).signals (barItem (flatBars [(5 : ℚ), 6, 7, 1])) = .ok [Buy, Hold, Hold, Buy] := by
  decide +kernel


/-- Twelve falling candles, then a rise, all marked bullish. -/
def vegasItem : Item (XF ℚ) :=
  let it := barItem (flatBars ((List.range 12).map fun i => ((40 - i : Int) : ℚ)) ++ flatBars [(60 : ℚ), 90, 120])
  { it with candles := it.candles.map fun c => { c with isBull := true } }

/-- Eleven unset signals, then `Hold`, then `Buy` after the crossing. -/
example : (Vegas 1 2 2 5 5).signals vegasItem = .ok (List.replicate 11 Buy ++ [Hold, Hold, Buy, Buy]) := by
  decide +kernel

end Verif.Props
