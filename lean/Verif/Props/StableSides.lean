import Verif.Props.StableMore
import Verif.Props.Crossing
import Verif.Props.Coarse

/-!
# Signals on which two feeds that nearly agree cannot disagree (C132)
-/

set_option linter.unusedSectionVars false

namespace Verif.Props
open Verif Verif.Klines Verif.Ta Verif.Ind GoFloat XF

variable {K : Type} [Field K] [LinearOrder K] [IsStrictOrderedRing K]

/-- The two lines of the strategy are numbers, and on nearby feeds their distance differs by at most `m * e`. -/
def GapStable (m : K) (I : Strat (XF K)) (a b : I.D → Candle (XF K) → XF K) : Prop :=
  ∀ (e : K) (bs bs' : List (Bar K)) (it it' : Item (XF K)) (d d' : List I.D), NearBars e bs bs' → Holds it bs → Holds it' bs' →
    I.toIndicator.data it = .ok d → I.toIndicator.data it' = .ok d' → ∀ (i : Nat) r r' c c', d[i]? = some r → d'[i]? = some r' →
      it.candles[i]? = some c → it'.candles[i]? = some c' →
      ∃ x y x' y', a r c = .fin x ∧ b r c = .fin y ∧ a r' c' = .fin x' ∧ b r' c' = .fin y' ∧ |(x - y) - (x' - y')| ≤ m * e

/-- If on one feed the two lines are further apart than `m * e` at a candle and the one before, the other feed, whose prices differ
by at most `e`, gives the same signal at that candle. -/
def AgreesBeyond (m : K) (I : Strat (XF K)) (a b : I.D → Candle (XF K) → XF K) : Prop :=
  ∀ (e : K) (bs bs' : List (Bar K)) (it it' : Item (XF K)) (d : List I.D) (s s' : List Side), NearBars e bs bs' → Holds it bs →
    Holds it' bs' → I.toIndicator.data it = .ok d → I.signals it = .ok s → I.signals it' = .ok s' → ∀ i : Nat,
      (∀ j, j = i ∨ j = i + 1 → ∀ r c, d[j]? = some r → it.candles[j]? = some c →
        ∃ x y, a r c = .fin x ∧ b r c = .fin y ∧ m * e < |x - y|) → s[i + 1]? = s'[i + 1]?

theorem same_sign {u v m : K} (h : |u - v| ≤ m) (hu : m < |u|) : (u < 0 ↔ v < 0) ∧ (0 < u ↔ 0 < v) := by
  have g := abs_le.mp h
  rcases lt_or_ge u 0 with h0 | h0
  · rw [abs_of_neg h0] at hu
    exact ⟨⟨fun _ => by linarith [g.1], fun _ => h0⟩, ⟨fun h => absurd h (by linarith), fun h => absurd h (by linarith [g.1])⟩⟩
  · rw [abs_of_nonneg h0] at hu
    have : 0 ≤ m := (abs_nonneg _).trans h
    exact ⟨⟨fun h => absurd h (by linarith), fun h => absurd h (by linarith [g.2])⟩,
      ⟨fun _ => by linarith [g.2], fun _ => by linarith⟩⟩

theorem crossing_agrees {m : K} {I : Strat (XF K)} {a b : I.D → Candle (XF K) → XF K} (h : Crossing I a b) (hg : GapStable m I a b) :
    AgreesBeyond m I a b := by
  intro e bs bs' it it' d s s' hn hb hb' hd hs hs' i hclear
  obtain ⟨ok, G, f, hy, hf, hr⟩ := h.rule
  obtain ⟨x, hx⟩ := candles_tab it
  obtain ⟨x', hx'⟩ := candles_tab it'
  have hlen : it'.candles.length = it.candles.length := by rw [(holds_get hb).1, (holds_get hb').1, hn.1]
  rw [hlen] at hx'
  obtain ⟨hok, rfl⟩ := yields_inv hy hx hd
  obtain ⟨-, rfl⟩ := signals_inv hf hx hs
  obtain ⟨-, rfl⟩ := signals_inv hf hx' hs'
  have hd' := (hy it' _ x' hx').1 hok
  by_cases hi : i + 1 < it.candles.length
  · rw [tab_getElem?_lt hi, tab_getElem?_lt hi, hr, hr]
    congr 1
    have key : ∀ j, j = i ∨ j = i + 1 →
        (a (G x j) (x j) <. b (G x j) (x j)) = (a (G x' j) (x' j) <. b (G x' j) (x' j)) ∧
        (a (G x j) (x j) >. b (G x j) (x j)) = (a (G x' j) (x' j) >. b (G x' j) (x' j)) := by
      intro j hj
      have hjl : j < it.candles.length := by omega
      have c1 : it.candles[j]? = some (x j) := by rw [hx, tab_getElem?_lt hjl]
      have c2 : it'.candles[j]? = some (x' j) := by rw [hx', tab_getElem?_lt hjl]
      obtain ⟨u, v, u', v', e1, e2, e3, e4, hle⟩ := hg e bs bs' it it' _ _ hn hb hb' hd hd' j _ _ _ _ (tab_getElem?_lt hjl)
        (tab_getElem?_lt hjl) c1 c2
      obtain ⟨a, b, e5, e6, hlt⟩ := hclear j hj _ _ (tab_getElem?_lt hjl) c1
      rw [e1] at e5
      rw [e2] at e6
      obtain rfl := XF.fin.inj e5
      obtain rfl := XF.fin.inj e6
      have hsg := same_sign hle hlt
      rw [e1, e2, e3, e4]
      rw [sub_neg, sub_neg, sub_pos, sub_pos] at hsg
      refine ⟨Bool.eq_iff_iff.mpr ?_, Bool.eq_iff_iff.mpr ?_⟩
      · simpa [XF.lt_fin] using hsg.1
      · simpa [XF.lt_fin, GoFloat.gt] using hsg.2
    obtain ⟨k1, k2⟩ := key i (Or.inl rfl)
    obtain ⟨k3, k4⟩ := key (i + 1) (Or.inr rfl)
    simp only [crossRule]
    rw [k1, k2, k3, k4]
  · rw [List.getElem?_eq_none (by simpa using hi), List.getElem?_eq_none (by simpa using hi)]

theorem near_close {e : K} {bs bs' : List (Bar K)} {it it' : Item (XF K)} (hn : NearBars e bs bs') (hb : Holds it bs)
    (hb' : Holds it' bs') {i : Nat} {c c' : Candle (XF K)} (hc : it.candles[i]? = some c) (hc' : it'.candles[i]? = some c') :
    ∃ x x', c.close = .fin x ∧ c'.close = .fin x' ∧ |x - x'| ≤ e := by
  have hi : i < bs.length := by rw [← (holds_get hb).1]; exact (List.getElem?_eq_some_iff.mp hc).1
  have h1 := List.getElem?_eq_getElem hi
  have h2 := List.getElem?_eq_getElem (show i < bs'.length by rw [← hn.1]; exact hi)
  exact ⟨_, _, ((holds_get hb).2 i _ c hc h1).2.2.2.1, ((holds_get hb').2 i _ c' hc' h2).2.2.2.1, (hn.2 i _ _ h1 h2).2.2.2.1⟩

theorem GapStable.zero {m : K} {I : Strat (XF K)} {f : I.D → XF K} (h : StableLine m I.toIndicator f) :
    GapStable m I (fun r _ => f r) (fun _ _ => fl 0) := by
  intro e bs bs' it it' d d' hn hb hb' hd hd' i r r' c c' hr hr' _ _
  obtain ⟨u, v, h1, h2, h3⟩ := h e bs bs' it it' d d' hn hb hb' hd hd' i r r' hr hr'
  exact ⟨u, 0, v, 0, h1, by simp, h2, by simp, by simpa using h3⟩

theorem GapStable.close {m : K} {I : Strat (XF K)} {f : I.D → XF K} (h : StableLine m I.toIndicator f) :
    GapStable (m + 1) I (fun _ c => c.close) (fun r _ => f r) := by
  intro e bs bs' it it' d d' hn hb hb' hd hd' i r r' c c' hr hr' hc hc'
  obtain ⟨u, v, h1, h2, h3⟩ := h e bs bs' it it' d d' hn hb hb' hd hd' i r r' hr hr'
  obtain ⟨x, x', h4, h5, h6⟩ := near_close hn hb hb' hc hc'
  refine ⟨x, u, x', v, h4, h1, h5, h2, ?_⟩
  have g1 := abs_le.mp h3
  have g2 := abs_le.mp h6
  exact abs_le.mpr ⟨by linarith [g1.2, g2.1], by linarith [g1.1, g2.2]⟩

/-- **C132** The zero-line strategies of `AbsolutePriceOscillator` and `AwesomeOscillator` and the middle-line strategies of the
Donchian and Keltner channels: feeds within `e` of each other give the same signal wherever the lines are more than `2 e` apart at the
candle and the one before. -/
theorem C132_crossings {p q : Nat} (hp : 1 ≤ p) (hq : 1 ≤ q) :
    AgreesBeyond (K := K) 2 (APO p q) (fun r _ => r.value) (fun _ _ => fl 0) ∧
    AgreesBeyond (K := K) 2 Awesome (fun r _ => r.value) (fun _ _ => fl 0) ∧
    AgreesBeyond (K := K) 2 (Donchian p) (fun _ c => c.close) (fun r _ => r.middle) ∧
    AgreesBeyond (K := K) 2 (Keltner p) (fun _ c => c.close) (fun r _ => r.middle) := by
  have h2 : (2 : K) = 1 + 1 := by norm_num
  refine ⟨crossing_agrees (.apo p q) (.zero (C130_differences (s := 1) hp hq le_rfl).1),
    crossing_agrees .awesome (.zero (C130_differences (p := 1) (q := 1) (s := 1) le_rfl le_rfl le_rfl).2.1), ?_, ?_⟩
  · rw [h2]
    exact crossing_agrees (.donchian p) (.close (C130_extremes (c := 1) (b := 1) (l := 0) (by omega) (by omega)).1.2.2)
  · rw [h2]
    exact crossing_agrees (.keltner p) (.close (C130_averages hp).2.2.2.1)

/-- **C132** Macd: the same signal wherever the two lines are more than `4 e` apart at the candle and the one before, and both more
than `2 e` from zero at the candle. -/
theorem C132_macd {p q s : Nat} (hp : 1 ≤ p) (hq : 1 ≤ q) (hs : 1 ≤ s) {e : K} {bs bs' : List (Bar K)} {it it' : Item (XF K)}
    (hn : NearBars e bs bs') (hb : Holds it bs) (hb' : Holds it' bs') {d : List (MACD.Data (XF K))} {t t' : List Side}
    (hd : (MACD p s q).data it = .ok d) (ht : (MACD p s q).signals it = .ok t) (ht' : (MACD p s q).signals it' = .ok t') {i : Nat}
    (hclear : ∀ j, j = i ∨ j = i + 1 → ∀ r, d[j]? = some r →
      ∃ x y, r.dif = .fin x ∧ r.dea = .fin y ∧ 4 * e < |x - y| ∧ (j = i + 1 → 2 * e < |x| ∧ 2 * e < |y|)) :
    t[i + 1]? = t'[i + 1]? := by
  obtain ⟨x, hx⟩ := candles_tab it
  obtain ⟨x', hx'⟩ := candles_tab it'
  have hlen : it'.candles.length = it.candles.length := by rw [(holds_get hb).1, (holds_get hb').1, hn.1]
  rw [hlen] at hx'
  obtain ⟨-, rfl⟩ := yields_inv (MACD.makes p s q).yields hx hd
  obtain ⟨-, rfl⟩ := signals_inv (MACD.signals p s q) hx ht
  obtain ⟨-, rfl⟩ := signals_inv (MACD.signals p s q) hx' ht'
  have hd' := ((MACD.makes (F := XF K) p s q).yields it' _ x' hx').1 trivial
  by_cases hi : i + 1 < it.candles.length
  · rw [tab_getElem?_lt hi, tab_getElem?_lt hi]
    congr 1
    have key : ∀ j, j = i ∨ j = i + 1 →
        (((MACD.out p s q x j).dif <. (MACD.out p s q x j).dea) = ((MACD.out p s q x' j).dif <. (MACD.out p s q x' j).dea) ∧
        ((MACD.out p s q x j).dif >. (MACD.out p s q x j).dea) = ((MACD.out p s q x' j).dif >. (MACD.out p s q x' j).dea)) ∧
        (j = i + 1 → ((MACD.out p s q x j).dif <. fl 0) = ((MACD.out p s q x' j).dif <. fl 0) ∧
          ((MACD.out p s q x j).dif >. fl 0) = ((MACD.out p s q x' j).dif >. fl 0) ∧
          ((MACD.out p s q x j).dea <. fl 0) = ((MACD.out p s q x' j).dea <. fl 0) ∧
          ((MACD.out p s q x j).dea >. fl 0) = ((MACD.out p s q x' j).dea >. fl 0)) := by
      intro j hj
      have hjl : j < it.candles.length := by omega
      obtain ⟨-, -, l1, l2, -⟩ := C130_differences (K := K) hp hq hs
      obtain ⟨u, u', e1, e2, h1⟩ := l1 e bs bs' it it' _ _ hn hb hb' hd hd' j _ _ (tab_getElem?_lt hjl) (tab_getElem?_lt hjl)
      obtain ⟨v, v', e3, e4, h2⟩ := l2 e bs bs' it it' _ _ hn hb hb' hd hd' j _ _ (tab_getElem?_lt hjl) (tab_getElem?_lt hjl)
      obtain ⟨a, b, e5, e6, hlt, hz⟩ := hclear j hj _ (tab_getElem?_lt hjl)
      rw [e1] at e5
      rw [e3] at e6
      obtain rfl := XF.fin.inj e5
      obtain rfl := XF.fin.inj e6
      have h3 : |(u - v) - (u' - v')| ≤ 4 * e := by
        have g1 := abs_le.mp h1
        have g2 := abs_le.mp h2
        exact abs_le.mpr ⟨by linarith [g1.1, g2.2], by linarith [g1.2, g2.1]⟩
      have hsg := same_sign h3 hlt
      rw [sub_neg, sub_neg, sub_pos, sub_pos] at hsg
      rw [e1, e2, e3, e4]
      refine ⟨⟨Bool.eq_iff_iff.mpr ?_, Bool.eq_iff_iff.mpr ?_⟩, fun hj1 => ?_⟩
      · simpa using hsg.1
      · simpa [GoFloat.gt] using hsg.2
      · have s1 := same_sign h1 (hz hj1).1
        have s2 := same_sign h2 (hz hj1).2
        refine ⟨Bool.eq_iff_iff.mpr ?_, Bool.eq_iff_iff.mpr ?_, Bool.eq_iff_iff.mpr ?_, Bool.eq_iff_iff.mpr ?_⟩
        · simpa using s1.1
        · simpa [GoFloat.gt] using s1.2
        · simpa using s2.1
        · simpa [GoFloat.gt] using s2.2
    obtain ⟨⟨k1, k2⟩, -⟩ := key i (Or.inl rfl)
    obtain ⟨⟨k3, k4⟩, k5⟩ := key (i + 1) (Or.inr rfl)
    obtain ⟨k5, k6, k7, k8⟩ := k5 rfl
    simp only [pairSide, MACD.rule]
    rw [k1, k2, k3, k4, k5, k6, k7, k8]
  · rw [List.getElem?_eq_none (by simpa using hi), List.getElem?_eq_none (by simpa using hi)]

/-- **C132** Bollinger bands: the same signal wherever the closes of the candle and the one before are more than `3 e` from the upper
band. -/
theorem C132_boll {p : Nat} {k : Int} {e : ℝ} {bs bs' : List (Bar ℝ)} {it it' : Item (XF ℝ)}
    (hn : NearBars e bs bs') (hb : Holds it bs) (hb' : Holds it' bs') {d : List (Boll.Data (XF ℝ))} {t t' : List Side}
    (hd : (Boll p k).data it = .ok d) (ht : (Boll p k).signals it = .ok t) (ht' : (Boll p k).signals it' = .ok t') {i : Nat}
    (hclear : ∀ j, j = i ∨ j = i + 1 → ∀ r c, d[j]? = some r → it.candles[j]? = some c →
      ∃ x y, c.close = .fin x ∧ r.upper = .fin y ∧ 3 * e < |x - y|) :
    t[i + 1]? = t'[i + 1]? := by
  obtain ⟨x, hx⟩ := candles_tab it
  obtain ⟨x', hx'⟩ := candles_tab it'
  have hlen : it'.candles.length = it.candles.length := by rw [(holds_get hb).1, (holds_get hb').1, hn.1]
  rw [hlen] at hx'
  obtain ⟨hok, rfl⟩ := yields_inv (Boll.makes p k).yields hx hd
  obtain ⟨-, rfl⟩ := signals_inv (Boll.signals p k) hx ht
  obtain ⟨-, rfl⟩ := signals_inv (Boll.signals p k) hx' ht'
  have hd' := ((Boll.makes (F := XF ℝ) p k).yields it' _ x' hx').1 hok
  have hg : GapStable 3 (Boll (F := XF ℝ) p k) (fun _ c => c.close) (fun r _ => r.upper) := by
    have := GapStable.close (C130_bollinger (p := p) (k := k)).2.2.1
    rwa [show (2 : ℝ) + 1 = 3 by norm_num] at this
  by_cases hi : i + 1 < it.candles.length
  · rw [tab_getElem?_lt hi, tab_getElem?_lt hi]
    congr 1
    have key : ∀ j, j = i ∨ j = i + 1 →
        (cl x j <. (Boll.out p x j).upper) = (cl x' j <. (Boll.out p x' j).upper) ∧
        (cl x j >. (Boll.out p x j).upper) = (cl x' j >. (Boll.out p x' j).upper) ∧ ∃ u u', cl x j = .fin u ∧ cl x' j = .fin u' := by
      intro j hj
      have hjl : j < it.candles.length := by omega
      have c1 : it.candles[j]? = some (x j) := by rw [hx, tab_getElem?_lt hjl]
      have c2 : it'.candles[j]? = some (x' j) := by rw [hx', tab_getElem?_lt hjl]
      obtain ⟨u, v, u', v', e1, e2, e3, e4, hle⟩ := hg e bs bs' it it' _ _ hn hb hb' hd hd' j _ _ _ _ (tab_getElem?_lt hjl)
        (tab_getElem?_lt hjl) c1 c2
      beta_reduce at e1 e2 e3 e4
      obtain ⟨a, b, e5, e6, hlt⟩ := hclear j hj _ _ (tab_getElem?_lt hjl) c1
      rw [e1] at e5
      rw [e2] at e6
      obtain rfl := XF.fin.inj e5
      obtain rfl := XF.fin.inj e6
      have hsg := same_sign hle hlt
      rw [sub_neg, sub_neg, sub_pos, sub_pos] at hsg
      have f1 : cl x j = .fin u := e1
      have f2 : cl x' j = .fin u' := e3
      rw [f1, f2, e2, e4]
      refine ⟨Bool.eq_iff_iff.mpr ?_, Bool.eq_iff_iff.mpr ?_, u, u', rfl, rfl⟩
      · simpa using hsg.1
      · simpa [GoFloat.gt] using hsg.2
    obtain ⟨k1, k2, a, a', ha, ha'⟩ := key i (Or.inl rfl)
    obtain ⟨k3, k4, -⟩ := key (i + 1) (Or.inr rfl)
    simp only [closeSide, Boll.rule]
    rw [k1, k4, ha, ha']
    simp [GoFloat.gt]
  · rw [List.getElem?_eq_none (by simpa using hi), List.getElem?_eq_none (by simpa using hi)]

/-- The rise from 2 to 5 is a crossing of the Donchian middle line with margins 1 and 3/2: every feed within 1/3 of it has the
crossing too. -/
example {bs' : List (Bar ℚ)} (hn : NearBars (1 / 3) [⟨4, 4, 4, 4, 1⟩, ⟨2, 2, 2, 2, 1⟩, ⟨5, 5, 5, 5, 1⟩] bs') {t' : List Side}
    (ht' : (Donchian 2).signals (barItem bs') = .ok t') : t'[2]? = some Buy := by
  have h := (C132_crossings (K := ℚ) (p := 2) (q := 1) (by omega) le_rfl).2.2.1 (1 / 3) _ bs' _ _
    [⟨0, .fin 4, .fin 4, .fin 4⟩, ⟨0, .fin 4, .fin 3, .fin 2⟩, ⟨0, .fin 5, .fin (7 / 2), .fin 2⟩] [Buy, Hold, Buy] t' hn
    (holds_barItem _) (holds_barItem _) (by decide +kernel) (by decide +kernel) ht' 1 ?_
  · exact h.symm
  · intro j hj r c hr hc
    rcases hj with rfl | rfl
    · obtain rfl := Option.some.inj hr
      obtain rfl := Option.some.inj hc
      exact ⟨2, 3, rfl, rfl, by norm_num⟩
    · obtain rfl := Option.some.inj hr
      obtain rfl := Option.some.inj hc
      exact ⟨5, 7 / 2, rfl, rfl, by norm_num [abs_of_pos]⟩

/-- **C132, the margin is needed**: an error of 1/100 in the last close turns a Buy of the Donchian strategy into Hold. -/
theorem C132_margin_refuted : NearBars (1 / 100) [⟨4, 4, 4, 4, 1⟩, ⟨2, 2, 2, 2, 1⟩, (⟨2, 2, 2, 2 + 1 / 100, 1⟩ : Bar ℚ)]
      [⟨4, 4, 4, 4, 1⟩, ⟨2, 2, 2, 2, 1⟩, ⟨2, 2, 2, 2, 1⟩] ∧
    (Donchian 2).signals (barItem [⟨4, 4, 4, 4, 1⟩, ⟨2, 2, 2, 2, 1⟩, (⟨2, 2, 2, 2 + 1 / 100, 1⟩ : Bar ℚ)]) = .ok [Buy, Hold, Buy] ∧
    (Donchian 2).signals (barItem [⟨4, 4, 4, 4, 1⟩, ⟨2, 2, 2, 2, 1⟩, (⟨2, 2, 2, 2, 1⟩ : Bar ℚ)]) = .ok [Buy, Hold, Hold] := by
  refine ⟨⟨rfl, fun i b b' h1 h2 => ?_⟩, by decide +kernel, by decide +kernel⟩
  match i with
  | 0 | 1 | 2 =>
    obtain rfl := Option.some.inj h1
    obtain rfl := Option.some.inj h2
    decide +kernel
  | i + 3 => simp at h1

end Verif.Props
