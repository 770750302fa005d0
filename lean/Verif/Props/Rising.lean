import Verif.Props.Mirror
import Verif.Props.Trailing
import Verif.Props.StableSides

/-!
# Markets that only rise, or only fall (C135)
-/

set_option linter.unusedSectionVars false

namespace Verif.Props
open Verif Verif.Klines Verif.Ta Verif.Ind GoFloat XF

variable {K : Type} [Field K] [LinearOrder K] [IsStrictOrderedRing K]

/-- From candle to candle `f` never falls. -/
def Climbs (f : Bar K → K) (bs : List (Bar K)) : Prop :=
  ∀ (i : Nat) (b b' : Bar K), bs[i]? = some b → bs[i + 1]? = some b' → f b ≤ f b'

/-- From candle to candle `f` never rises. -/
def Sinks (f : Bar K → K) (bs : List (Bar K)) : Prop :=
  ∀ (i : Nat) (b b' : Bar K), bs[i]? = some b → bs[i + 1]? = some b' → f b' ≤ f b

/-- From candle `k` on, the strategy does not report `bad` on a series of numbers with the property `P`. -/
def Withholds (bad : Side) (k : Nat) (P : List (Bar K) → Prop) (I : Strat (XF K)) : Prop :=
  ∀ (it : Item (XF K)) (bs : List (Bar K)) (s : List Side), Holds it bs → P bs → I.signals it = .ok s →
    ∀ i, k ≤ i → s[i]? ≠ some bad

/-! ### Averages of a column that never falls -/

theorem emaK_order {p q n : Nat} (hp : 1 ≤ p) (hpq : p ≤ q) {a : Nat → K} (ha : ∀ i, i + 1 < n → a i ≤ a (i + 1)) :
    ∀ i < n, emaK q a i ≤ emaK p a i ∧ emaK p a i ≤ a i
  | 0, _ => ⟨le_refl _, le_refl _⟩
  | i + 1, hi => by
    obtain ⟨h1, h2⟩ := emaK_order hp hpq ha i (by omega)
    have h3 := ha i hi
    have hp' : (1 : K) ≤ p := by exact_mod_cast hp
    have hq' : (p : K) ≤ q := by exact_mod_cast hpq
    simp only [emaK]
    have e : ∀ (t : K) (u v : K), 0 < t + 1 → (2 * v + (t - 1) * u) / (t + 1) = v - (t - 1) / (t + 1) * (v - u) := by
      intro t u v ht
      field_simp
      ring
    rw [e _ _ _ (by linarith), e _ _ _ (by linarith)]
    have f0 : (0 : K) ≤ (p - 1) / (p + 1) := div_nonneg (by linarith) (by linarith)
    have f1 : ((p : K) - 1) / (p + 1) ≤ (q - 1) / (q + 1) := by
      rw [div_le_div_iff₀ (by linarith) (by linarith)]
      nlinarith
    have f2 := mul_le_mul f1 (show a (i + 1) - emaK p a i ≤ a (i + 1) - emaK q a i by linarith) (by linarith) (f0.trans f1)
    have f3 := mul_nonneg f0 (show (0 : K) ≤ a (i + 1) - emaK p a i by linarith)
    exact ⟨by linarith, by linarith⟩

theorem emaK_climbs {p n : Nat} (hp : 1 ≤ p) {a : Nat → K} (ha : ∀ i, i + 1 < n → a i ≤ a (i + 1)) {i : Nat} (hi : i + 1 < n) :
    emaK p a i ≤ emaK p a (i + 1) := by
  have h := (emaK_order hp le_rfl ha i (by omega)).2.trans (ha i hi)
  have hp' : (1 : K) ≤ p := by exact_mod_cast hp
  rw [emaK, le_div_iff₀ (by linarith)]
  nlinarith

theorem climbs_tab {f : Bar K → K} {bs : List (Bar K)} {b : Nat → Bar K} (hbs : bs = tab bs.length b) (h : Climbs f bs) :
    ∀ i, i + 1 < bs.length → f (b i) ≤ f (b (i + 1)) := fun i hi =>
  h i _ _ (by rw [hbs, tab_getElem?_lt (by omega)]) (by rw [hbs, tab_getElem?_lt hi])

/-- **C135** On a market whose close never falls, an exponential average is never above the close and never falls, and of two
averages the longer one is never above the shorter one. -/
theorem C135_averages {p q : Nat} (hp : 1 ≤ p) (hpq : p ≤ q) {it : Item (XF K)} {bs : List (Bar K)} (hb : Holds it bs)
    (hr : Climbs Bar.c bs) {d e : List (Rec (XF K))} (hd : (EMA p).data it = .ok d) (he : (EMA q).data it = .ok e) {i : Nat}
    {r s : Rec (XF K)} {b : Bar K} (hi : d[i]? = some r) (hj : e[i]? = some s) (hk : bs[i]? = some b) :
    ∃ x y, r.value = .fin x ∧ s.value = .fin y ∧ y ≤ x ∧ x ≤ b.c ∧
      ∀ r', d[i + 1]? = some r' → ∃ x', r'.value = .fin x' ∧ x ≤ x' := by
  obtain ⟨x, c, hx, hbs, hC⟩ := hb.cols
  obtain ⟨hn, -, rfl, hbi⟩ := at_index (b := c) (EMA.makes p).yields hx hd hi
  obtain ⟨-, -, rfl, -⟩ := at_index (b := c) (EMA.makes q).yields hx he hj
  have ho := emaK_order hp hpq (climbs_tab hbs hr) i hn
  rw [hbs, tab_getElem?_lt hn] at hk
  obtain rfl := Option.some.inj hk
  refine ⟨_, _, ema_cl hC p i, ema_cl hC q i, ho.1, ho.2, fun r' hr' => ?_⟩
  obtain ⟨hn', -, rfl, -⟩ := at_index (b := c) (EMA.makes p).yields hx hd hr'
  exact ⟨_, ema_cl hC p (i + 1), emaK_climbs hp (climbs_tab hbs hr) hn'⟩

/-! ### No selling in a market that never falls -/

theorem withholds_of {bad : Side} {k : Nat} {P : List (Bar K) → Prop} {I : Strat (XF K)} {ok} {f} (hf : Signals I ok f)
    (h : ∀ (bs : List (Bar K)) x b, bs = tab bs.length b → Cols bs.length x b → P bs →
      ∀ i, k ≤ i → i < bs.length → f x i ≠ bad) : Withholds bad k P I := by
  intro it bs s hb hP hs i hk hi
  obtain ⟨x, b, hx, hbs, hC⟩ := hb.cols
  obtain ⟨-, rfl⟩ := signals_inv hf hx hs
  have hn : i < bs.length := by simpa using (List.getElem?_eq_some_iff.mp hi).1
  rw [tab_getElem?_lt hn] at hi
  exact h bs x b hbs hC hP i hk hn (Option.some.inj hi)

theorem cross_no_sell {a b pa pb : XF K} (h : (a <. b) = false) : crossRule a b pa pb ≠ Sell := by
  rw [crossRule, h]
  split
  · decide
  · simp only [Bool.false_and, Bool.false_eq_true, if_false]; decide

/-- **C135** Trend followers do not sell in a market that never falls: `AbsolutePriceOscillator`, `Macd`, `KeltnerChannel`,
`DonchianChannel`, `TraderXO` and `EMAVegas` when no close is below the one before, `AwesomeOscillator` when no high and no low is. -/
theorem C135_no_sell {p q s : Nat} (hp : 1 ≤ p) (hpq : p ≤ q) :
    Withholds (K := K) Sell 0 (Climbs Bar.c) (APO p q) ∧ Withholds (K := K) Sell 0 (Climbs Bar.c) (MACD p s q) ∧
    Withholds (K := K) Sell 0 (Climbs Bar.c) (Keltner p) ∧ Withholds (K := K) Sell 0 (Climbs Bar.c) (Donchian p) ∧
    Withholds (K := K) Sell 0 (Climbs Bar.c) (XO p q) ∧
    (∀ v s2 l2 : Nat, Withholds (K := K) Sell 0 (Climbs Bar.c) (Vegas v p s2 q l2)) ∧
    Withholds (K := K) Sell 0 (fun bs => Climbs Bar.h bs ∧ Climbs Bar.l bs) Awesome := by
  have z : (fl 0 : XF K) = .fin 0 := by simp
  refine ⟨withholds_of (APO.signals _ _) fun bs x b hbs hC hr i _ hi => ?_,
    withholds_of (MACD.signals _ _ _) fun bs x b hbs hC hr i _ hi => ?_,
    withholds_of (Keltner.signals _) fun bs x b hbs hC hr i _ hi => ?_,
    withholds_of (Donchian.signals _) fun bs x b hbs hC hr i _ hi => ?_,
    withholds_of (XO.signals _ _) fun bs x b hbs hC hr i _ hi => ?_,
    fun v s2 l2 => withholds_of (Vegas.signals _ _ _ _ _) fun bs x b hbs hC hr i _ hi => ?_,
    withholds_of Awesome.signals fun bs x b hbs hC hr i _ hi => ?_⟩
  · cases i with
    | zero => exact (by decide : Buy ≠ Sell)
    | succ i =>
      refine cross_no_sell ?_
      show (subF (emaF p (cl x) (i + 1)) (emaF q (cl x) (i + 1)) <. fl 0) = false
      rw [ema_cl hC, ema_cl hC, subF_fin, z, XF.lt_fin]
      exact decide_eq_false (by linarith [(emaK_order hp hpq (climbs_tab hbs hr) _ hi).1])
  · cases i with
    | zero => exact (by decide : Buy ≠ Sell)
    | succ i =>
      have e : ((MACD.out p s q x (i + 1)).dif <. fl 0) = false := by
        show (difF p q x (i + 1) <. fl 0) = false
        rw [dif_fin hC, z]
        show (XF.fin _ <. XF.fin _) = false
        rw [XF.lt_fin]
        exact decide_eq_false (by linarith [(emaK_order hp hpq (climbs_tab hbs hr) _ hi).1])
      show MACD.rule _ _ ≠ Sell
      rw [MACD.rule, e]
      split
      · decide
      · simp only [Bool.false_and, Bool.false_eq_true, if_false]; decide
  · cases i with
    | zero => exact (by decide : Buy ≠ Sell)
    | succ i =>
      refine cross_no_sell (b := emaF p (cl x) (i + 1)) ?_
      rw [ema_cl hC, hC.cl]
      show (XF.fin _ <. XF.fin _) = false
      rw [XF.lt_fin]
      exact decide_eq_false (by linarith [(emaK_order hp hpq (climbs_tab hbs hr) _ hi).2])
  · cases i with
    | zero => exact (by decide : Buy ≠ Sell)
    | succ i =>
      refine cross_no_sell (b := (Donchian.out p x (i + 1)).middle) ?_
      obtain ⟨m, e1, h1⟩ := maxF_fin (show 0 < p by omega) (fun j => (b j).c) (i + 1)
      obtain ⟨l, e2, h2⟩ := minF_fin (show 0 < p by omega) (fun j => (b j).c) (i + 1)
      have hmono : ∀ j k, j ≤ k → k < bs.length → (b j).c ≤ (b k).c := by
        intro j k hjk
        induction k, hjk using Nat.le_induction with
        | base => exact fun _ => le_refl _
        | succ k hk ih => exact fun h => (ih (by omega)).trans (climbs_tab hbs hr k h)
      have hm : m ≤ (b (i + 1)).c := by
        obtain ⟨j, -, hj, rfl⟩ := h1.1
        exact hmono _ _ hj hi
      have hl : l ≤ (b (i + 1)).c := by
        obtain ⟨j, -, hj, rfl⟩ := h2.1
        exact hmono _ _ hj hi
      simp only [Donchian.out, Int.toNat_natCast]
      rw [hC.cl, e1, e2]
      have h2 : (2 : K) ≠ 0 := two_ne_zero
      show (XF.fin (b (i + 1)).c <. _) = false
      have hh : (XF.fin m +. XF.fin l) *. ((fl 1 : XF K) /. fl 2) = .fin ((m + l) * (1 / 2)) := by
        rw [show (fl 1 : XF K) = .fin 1 by simp, show (fl 2 : XF K) = .fin 2 by simp, div_fin h2, add_fin, mul_fin]
      rw [hh, XF.lt_fin]
      exact decide_eq_false (by linarith)
  · cases i with
    | zero => exact (by decide : Hold ≠ Sell)
    | succ i =>
      have e : ((XO.out p q x (i + 1)).fast <. (XO.out p q x (i + 1)).slow) = false := by
        show (emaF p (cl x) (i + 1) <. emaF q (cl x) (i + 1)) = false
        rw [ema_cl hC, ema_cl hC, XF.lt_fin]
        exact decide_eq_false (by linarith [(emaK_order hp hpq (climbs_tab hbs hr) _ hi).1])
      simp only [xoF, XO.step, e, Bool.and_false, Bool.false_and, Bool.false_eq_true, if_false]
      split_ifs <;> decide
  · show vegasSide _ _ _ ≠ Sell
    rw [vegasSide]
    split
    · decide
    · have e : ((Vegas.out v p s2 q l2 x i).short1 <. (Vegas.out v p s2 q l2 x i).long1) = false := by
        show (emaF p (cl x) i <. emaF q (cl x) i) = false
        rw [ema_cl hC, ema_cl hC, XF.lt_fin]
        exact decide_eq_false (by linarith [(emaK_order hp hpq (climbs_tab hbs hr) _ hi).1])
      simp only [Vegas.rule, e, Bool.and_false, Bool.false_and, Bool.false_eq_true, if_false]
      split_ifs <;> decide
  · cases i with
    | zero => exact (by decide : Buy ≠ Sell)
    | succ i =>
      refine cross_no_sell ?_
      show (subF (emaF ((5 : Nat) : Int) (medF x) (i + 1)) (emaF ((34 : Nat) : Int) (medF x) (i + 1)) <. fl 0) = false
      rw [med_fin hC, emaF_fin, emaF_fin, subF_fin, z, XF.lt_fin]
      have hm : ∀ j, j + 1 < bs.length → ((b j).l + (b j).h) / 2 ≤ ((b (j + 1)).l + (b (j + 1)).h) / 2 := fun j hj => by
        have h1 := climbs_tab hbs hr.1 j hj
        have h2 := climbs_tab hbs hr.2 j hj
        linarith
      exact decide_eq_false (by linarith [(emaK_order (p := 5) (q := 34) (by omega) (by omega) hm _ hi).1])

/-! ### No buying in a market that never rises -/

theorem holds_mirror (m : K) {it : Item (XF K)} {bs : List (Bar K)} (hb : Holds it bs) :
    Holds (mirror m it) (bs.map (mirrorB m)) := by
  obtain ⟨x, b, hx, hbs, hC⟩ := hb.cols
  have hop := fun i => congrFun hC.op i
  have hhi := fun i => congrFun hC.hi i
  have hlo := fun i => congrFun hC.lo i
  have hcl := fun i => congrFun hC.cl i
  have hvo := fun i => congrFun hC.vo i
  simp only [Ind.op, Ind.hi, Ind.lo, Ind.cl, Ind.vo, finF] at hop hhi hlo hcl hvo
  rw [Holds, mirror_tab hx, hbs, map_tab, map_tab, map_tab, tab_length]
  refine tab_ext fun i _ => ?_
  simp only [mir, mirrorC, hop, hhi, hlo, hcl, hvo, sub_fin, mirrorB]

theorem withholds_mirror {k : Nat} {P P' : List (Bar K) → Prop} {I : Strat (XF K)} (ht : SidesTurn (Numeric (K := K)) I k)
    (h : Withholds Sell 0 P I) (hP : ∀ bs, P' bs → P (bs.map (mirrorB 0))) : Withholds Buy k P' I := by
  intro it bs s hb hbs hs i hk hi
  have hm := ht 0 it ⟨bs, hb⟩
  rw [hs] at hm
  obtain ⟨s', hs'⟩ : ∃ s', I.signals (mirror 0 it) = .ok s' := by
    cases he : I.signals (mirror 0 it) with
    | ok s' => exact ⟨s', rfl⟩
    | error e => rw [he] at hm; cases hm
  rw [hs'] at hm
  have hm' : s'.drop k = (s.drop k).map opposite := Option.some.inj hm
  have := congrArg (fun l : List Side => l[i - k]?) hm'
  simp only [List.getElem?_drop, List.getElem?_map, show k + (i - k) = i by omega, hi] at this
  exact h (mirror 0 it) _ s' (holds_mirror 0 hb) (hP bs hbs) hs' i (Nat.zero_le _) (this.trans (by decide))

theorem sinks_mirror {f g : Bar K → K} (hfg : ∀ b, f (mirrorB 0 b) = 0 - g b) {bs : List (Bar K)} (h : Sinks g bs) :
    Climbs f (bs.map (mirrorB 0)) := by
  intro i b b' h1 h2
  rw [List.getElem?_map] at h1 h2
  obtain ⟨c, hc, rfl⟩ := Option.map_eq_some_iff.mp h1
  obtain ⟨c', hc', rfl⟩ := Option.map_eq_some_iff.mp h2
  have := h i c c' hc hc'
  rw [hfg, hfg]
  linarith

/-- **C135** The same strategies do not buy in a market that never rises, their fixed answers on the first candles apart. -/
theorem C135_no_buy {p q s : Nat} (hp : 1 ≤ p) (hpq : p ≤ q) :
    Withholds (K := K) Buy 1 (Sinks Bar.c) (APO p q) ∧ Withholds (K := K) Buy 1 (Sinks Bar.c) (MACD p s q) ∧
    Withholds (K := K) Buy 1 (Sinks Bar.c) (Keltner p) ∧ Withholds (K := K) Buy 1 (Sinks Bar.c) (Donchian p) ∧
    Withholds (K := K) Buy 0 (Sinks Bar.c) (XO p q) ∧
    (∀ v s2 l2 : Nat, 1 ≤ v → Withholds (K := K) Buy 11 (Sinks Bar.c) (Vegas v p s2 q l2)) ∧
    Withholds (K := K) Buy 1 (fun bs => Sinks Bar.h bs ∧ Sinks Bar.l bs) Awesome := by
  obtain ⟨h1, h2, h3, h4, h5, h6, h7⟩ := C135_no_sell (K := K) (s := s) hp hpq
  obtain ⟨t1, t2, t3, -, t4, t5, -, -, -, -, -, t6, -, -⟩ := C117_signals (K := K) (s := s) (l := 0) hp (hp.trans hpq)
  have hc : ∀ bs : List (Bar K), Sinks Bar.c bs → Climbs Bar.c (bs.map (mirrorB 0)) := fun bs h => sinks_mirror (fun _ => rfl) h
  refine ⟨withholds_mirror t1 h1 hc, withholds_mirror t3 h2 hc, withholds_mirror t5 h3 hc, withholds_mirror t4 h4 hc,
    withholds_mirror t6 h5 hc, fun v s2 l2 hv => withholds_mirror ?_ (h6 v s2 l2) hc, withholds_mirror t2 h7 fun bs h => ?_⟩
  · obtain ⟨-, -, -, -, -, -, -, -, -, -, -, -, -, t7⟩ := C117_signals (K := K) (s := s) (l := 0) hv hp
    exact t7 p s2 q l2
  · exact ⟨sinks_mirror (fun _ => rfl) h.2, sinks_mirror (fun _ => rfl) h.1⟩

theorem ut_cross {p q : Int} {it : Item (XF K)} {bs : List (Bar K)} (hb : Holds it bs) {s : List Side}
    (hs : (UT p q).signals it = .ok s) {i : Nat} {side : Side} (hside : s[i]? = some side) :
    i < bs.length ∧ (i = 0 → side = Buy) ∧ ∀ j, i = j + 1 → (j = 0 → side = Hold) ∧ ∃ a u v : K,
      ((∀ b ∈ bs, b.l ≤ b.h) → 0 ≤ a) ∧
      v = (if u < col Bar.c bs (j + 1) ∧ u < col Bar.c bs j then Max.max u (col Bar.c bs (j + 1) - p * a)
        else if col Bar.c bs (j + 1) < u ∧ col Bar.c bs j < u then Min.min u (col Bar.c bs (j + 1) + p * a)
        else if u < col Bar.c bs (j + 1) then col Bar.c bs (j + 1) - p * a else col Bar.c bs (j + 1) + p * a) ∧
      (1 ≤ j → (side = Buy ↔ col Bar.c bs j < u ∧ v < col Bar.c bs (j + 1)) ∧
        (side = Sell ↔ u < col Bar.c bs j ∧ col Bar.c bs (j + 1) < v)) := by
  obtain ⟨x, hx⟩ := candles_tab it
  obtain ⟨hok, e⟩ := signals_inv (UT.signals p q) hx hs
  have hl : it.candles.length = bs.length := (holds_get hb).1
  have hi : i < it.candles.length := by rw [e] at hside; simpa using (List.getElem?_eq_some_iff.mp hside).1
  have hd := ((UT.makes (F := XF K) p q).yields it _ x hx).1 hok
  obtain ⟨stop, atr, -, h1, h2, h3, h4, h5⟩ := C51_ut_stop hb hd hs
  refine ⟨by omega, ?_, ?_⟩
  · rintro rfl
    rw [e, tab_getElem?_lt hi] at hside
    exact (Option.some.inj hside).symm
  · rintro j rfl
    refine ⟨fun h => ?_, atr (j + 1), stop j, stop (j + 1), fun h => h1 h _, (h4 j (by omega)).1, fun hj => ?_⟩
    · subst h
      exact h5 side hside
    · obtain ⟨k, rfl⟩ : ∃ k, j = k + 1 := ⟨j - 1, by omega⟩
      have hc := C41_crossing_partial ltAsymm_XF (.utBot p q) hd hs (i := k + 1) (tab_getElem?_lt (by omega)) (tab_getElem?_lt hi)
        (by rw [hx, tab_getElem?_lt (by omega)]) (by rw [hx, tab_getElem?_lt hi]) hside
      obtain ⟨a1, a2⟩ := h3 k _ (tab_getElem?_lt (by omega))
      obtain ⟨b1, b2⟩ := h3 (k + 1) _ (tab_getElem?_lt hi)
      simp only [a1, a2, b1, b2, GoFloat.gt, XF.lt_fin, decide_eq_true_iff] at hc
      exact ⟨hc.1, hc.2.1⟩

theorem col_step {f : Bar K → K} {bs : List (Bar K)} {j : Nat} (hj : j + 1 < bs.length) :
    ∃ b b', bs[j]? = some b ∧ bs[j + 1]? = some b' ∧ col f bs j = f b ∧ col f bs (j + 1) = f b' :=
  ⟨_, _, List.getElem?_eq_getElem (by omega), List.getElem?_eq_getElem hj, by simp [col, show j < bs.length by omega],
    by simp [col, hj]⟩

/-- **C135** `UTBot` with a factor that is not negative: the stop moves behind the close, so a market whose close never falls is not
sold and, from the second candle on, one whose close never rises is not bought. -/
theorem C135_ut_bot {p q : Int} (hp : 0 ≤ p) :
    Withholds (K := K) Sell 0 (fun bs => Climbs Bar.c bs ∧ ∀ b ∈ bs, b.l ≤ b.h) (UT p q) ∧
    Withholds (K := K) Buy 1 (fun bs => Sinks Bar.c bs ∧ ∀ b ∈ bs, b.l ≤ b.h) (UT p q) := by
  have hp' : (0 : K) ≤ p := by exact_mod_cast hp
  refine ⟨fun it bs s hb ⟨hr, hw⟩ hs i _ hi => ?_, fun it bs s hb ⟨hr, hw⟩ hs i h1 hi => ?_⟩
  · obtain ⟨hn, h0, h⟩ := ut_cross hb hs hi
    cases i with
    | zero => exact absurd (h0 rfl) (by decide)
    | succ j =>
      obtain ⟨h1, a, u, v, ha, hv, hc⟩ := h j rfl
      rcases Nat.eq_zero_or_pos j with hj | hj
      · exact absurd (h1 hj) (by decide)
      · obtain ⟨b, b', e1, e2, e3, e4⟩ := col_step (f := Bar.c) hn
        have hle := hr j b b' e1 e2
        rw [e3, e4] at hv hc
        obtain ⟨g1, g2⟩ := (hc hj).2.mp rfl
        rw [if_pos ⟨by linarith, g1⟩] at hv
        have := mul_nonneg hp' (ha hw)
        rw [hv, lt_max_iff] at g2
        rcases g2 with g2 | g2 <;> linarith
  · obtain ⟨hn, -, h⟩ := ut_cross hb hs hi
    cases i with
    | zero => omega
    | succ j =>
      obtain ⟨h1, a, u, v, ha, hv, hc⟩ := h j rfl
      rcases Nat.eq_zero_or_pos j with hj | hj
      · exact absurd (h1 hj) (by decide)
      · obtain ⟨b, b', e1, e2, e3, e4⟩ := col_step (f := Bar.c) hn
        have hle := hr j b b' e1 e2
        rw [e3, e4] at hv hc
        obtain ⟨g1, g2⟩ := (hc hj).1.mp rfl
        rw [if_neg (by rintro ⟨h, -⟩; linarith), if_pos ⟨by linarith, g1⟩] at hv
        have := mul_nonneg hp' (ha hw)
        rw [hv, min_lt_iff] at g2
        rcases g2 with g2 | g2 <;> linarith

/-- What `C52_supertrend_partial` says of a market whose candles have `low <= high`, with the classic range. -/
theorem st_runs {p m : Int} (hm : 0 ≤ m) {it : Item (XF K)} {bs : List (Bar K)} (hb : Holds it bs) (hw : ∀ b ∈ bs, b.l ≤ b.h)
    {s : List Side} (hs : (ST p m true).signals it = .ok s) :
    ∃ (up dn w : Nat → K) (bull : Nat → Bool), up 0 = 0 ∧ dn 0 = 0 ∧ bull 0 = true ∧ (∀ i < bs.length, 0 ≤ w i) ∧
      ∀ i b b', bs[i]? = some b → bs[i + 1]? = some b' →
        up (i + 1) = (if up i < b.c then Max.max ((b'.h + b'.l) / 2 - w (i + 1)) (up i) else (b'.h + b'.l) / 2 - w (i + 1)) ∧
        dn (i + 1) = (if b.c < dn i then Min.min ((b'.h + b'.l) / 2 + w (i + 1)) (dn i) else (b'.h + b'.l) / 2 + w (i + 1)) ∧
        (bull i = true → (bull (i + 1) = false ↔ b'.c < up i)) ∧ (bull i = false → (bull (i + 1) = true ↔ dn i < b'.c)) ∧
        ∀ side, s[i + 1]? = some side →
          (side = Buy → bull i = false ∧ bull (i + 1) = true) ∧ (side = Sell → bull i = true ∧ bull (i + 1) = false) := by
  obtain ⟨x, b, hx, hbs, hc, hb0⟩ := hb.cols₀
  obtain ⟨⟨hok, hok2⟩, -⟩ := signals_inv (ST.signals p m true) hx hs
  have hd := ((ST.makes p m true).yields it _ x hx).1 ⟨hok, hok2⟩
  obtain ⟨up, dn, r, bull, hr, h1, h2, h3, -, hstep⟩ := C52_supertrend_partial hb hd hs
  obtain ⟨a, ea, ha⟩ := atrI_fin p (fun i => (b i).h) (fun i => (b i).l) (fun i => (b i).c)
  have hm' : (0 : K) ≤ m := by exact_mod_cast hm
  have hr' : ∀ j < bs.length, 0 ≤ r j := by
    rw [IsRange, if_pos rfl] at hr
    have e : ∀ f : Bar K → K, fins (bs.map f) = tab bs.length (finF fun i => f (b i)) := fun f => by
      conv_lhs => rw [hbs]
      rw [map_tab, fins_tab]
    have := hr (tab bs.length (finF a)) (by rw [e, e, e, Atr_ok _ _ _ hok, ea])
    intro j hj
    have := tab_inj this hj
    rw [← (fin_inj.mp this)]
    refine ha (fun i => ?_) j
    by_cases hi : i < bs.length
    · exact hw _ (by rw [hbs]; exact mem_tab.mpr ⟨i, hi, rfl⟩)
    · rw [hb0 i (by omega)]
  refine ⟨up, dn, fun i => m * r i, bull, h1, h2, h3, fun i hi => mul_nonneg hm' (hr' i hi), fun i c c' e1 e2 => ?_⟩
  have hi : i + 1 < bs.length := (List.getElem?_eq_some_iff.mp e2).1
  have k := hstep i hi
  have c1 : ∀ f : Bar K → K, col f bs i = f c := fun f => by rw [col, e1]; rfl
  have c2 : ∀ f : Bar K → K, col f bs (i + 1) = f c' := fun f => by rw [col, e2]; rfl
  simp only [c1, c2] at k
  obtain ⟨k1, k2, -, -, k3, k4, k5⟩ := k
  exact ⟨k1, k2, k3, k4, fun side hside => ⟨fun h => ⟨((k5 side hside).1.mp h).1, ((k5 side hside).1.mp h).2.1⟩,
    fun h => ⟨((k5 side hside).2.mp h).1, ((k5 side hside).2.mp h).2.1⟩⟩⟩

/-- **C135** `SuperTrend` with the classic range: prices not negative, every candle closing in its upper half, and no close below the
one before: after the first candle there is no signal at all. When every candle closes in its lower half and no close is above the one
before, there is no `Buy` after the first candle. -/
theorem C135_super_trend {p m : Int} (hm : 0 ≤ m) :
    (∀ side, side = Buy ∨ side = Sell → Withholds (K := K) side 1
      (fun bs => Climbs Bar.c bs ∧ ∀ b ∈ bs, 0 ≤ b.c ∧ b.l ≤ b.h ∧ (b.h + b.l) / 2 ≤ b.c) (ST p m true)) ∧
    Withholds (K := K) Buy 1 (fun bs => Sinks Bar.c bs ∧ ∀ b ∈ bs, 0 ≤ b.c ∧ b.l ≤ b.h ∧ b.c ≤ (b.h + b.l) / 2) (ST p m true) := by
  refine ⟨fun side hside it bs s hb ⟨hr, hw⟩ hs i h1 hi => ?_, fun it bs s hb ⟨hr, hw⟩ hs i h1 hi => ?_⟩
  · obtain ⟨up, dn, w, bull, e1, e2, e3, hw', h⟩ := st_runs hm hb (fun b hb => (hw b hb).2.1) hs
    have key : ∀ j b, bs[j]? = some b → bull j = true ∧ up j ≤ b.c := by
      intro j
      induction j with
      | zero => exact fun b hb => ⟨e3, by rw [e1]; exact (hw b (List.mem_of_getElem? hb)).1⟩
      | succ j ih =>
        intro b' hb'
        have hj : j + 1 < bs.length := (List.getElem?_eq_some_iff.mp hb').1
        have hbj := List.getElem?_eq_getElem (show j < bs.length by omega)
        obtain ⟨g1, g2⟩ := ih _ hbj
        obtain ⟨k1, -, k3, -⟩ := h j _ _ hbj hb'
        have hle := hr j _ _ hbj hb'
        have h3 := (hw b' (List.mem_of_getElem? hb')).2.2
        have h4 := hw' (j + 1) hj
        refine ⟨?_, ?_⟩
        · by_contra hn
          have := (k3 g1).mp (by simpa using hn)
          linarith
        · rw [k1]
          split
          · exact max_le (by linarith) (by linarith)
          · linarith
    obtain ⟨j, rfl⟩ : ∃ j, i = j + 1 := ⟨i - 1, by omega⟩
    obtain ⟨b, b', hb1, hb2⟩ : ∃ b b', bs[j]? = some b ∧ bs[j + 1]? = some b' := by
      have hn : j + 1 < bs.length := by
        obtain ⟨x, b, hx, -, -⟩ := hb.cols
        rw [(signals_inv (ST.signals p m true) hx hs).2] at hi
        simpa using (List.getElem?_eq_some_iff.mp hi).1
      exact ⟨_, _, List.getElem?_eq_getElem (by omega), List.getElem?_eq_getElem hn⟩
    obtain ⟨-, -, -, -, k⟩ := h j b b' hb1 hb2
    have k' := k side hi
    rcases hside with rfl | rfl
    · have := (k'.1 rfl).1
      rw [(key j b hb1).1] at this
      cases this
    · have := (k'.2 rfl).2
      rw [(key _ b' hb2).1] at this
      cases this
  · obtain ⟨up, dn, w, bull, e1, e2, e3, hw', h⟩ := st_runs hm hb (fun b hb => (hw b hb).2.1) hs
    have key : ∀ j b, bs[j + 1]? = some b → b.c ≤ dn (j + 1) := by
      intro j
      induction j with
      | zero =>
        intro b' hb'
        have hj : 0 + 1 < bs.length := (List.getElem?_eq_some_iff.mp hb').1
        have hbj := List.getElem?_eq_getElem (show 0 < bs.length by omega)
        obtain ⟨-, k2, -⟩ := h 0 _ _ hbj hb'
        have h0 := (hw _ (List.mem_of_getElem? hbj)).1
        have h3 := (hw b' (List.mem_of_getElem? hb')).2.2
        have h4 := hw' (0 + 1) hj
        rw [k2, if_neg (by rw [e2]; linarith)]
        linarith
      | succ j ih =>
        intro b' hb'
        have hj : j + 1 + 1 < bs.length := (List.getElem?_eq_some_iff.mp hb').1
        have hbj := List.getElem?_eq_getElem (show j + 1 < bs.length by omega)
        have g := ih _ hbj
        obtain ⟨-, k2, -⟩ := h (j + 1) _ _ hbj hb'
        have hle := hr (j + 1) _ _ hbj hb'
        have h3 := (hw b' (List.mem_of_getElem? hb')).2.2
        have h4 := hw' (j + 1 + 1) hj
        rw [k2]
        split
        · exact le_min (by linarith) (by linarith)
        · linarith
    obtain ⟨j, rfl⟩ : ∃ j, i = j + 1 := ⟨i - 1, by omega⟩
    obtain ⟨b, b', hb1, hb2⟩ : ∃ b b', bs[j]? = some b ∧ bs[j + 1]? = some b' := by
      have hn : j + 1 < bs.length := by
        obtain ⟨x, b, hx, -, -⟩ := hb.cols
        rw [(signals_inv (ST.signals p m true) hx hs).2] at hi
        simpa using (List.getElem?_eq_some_iff.mp hi).1
      exact ⟨_, _, List.getElem?_eq_getElem (by omega), List.getElem?_eq_getElem hn⟩
    obtain ⟨-, -, -, k4, k⟩ := h j b b' hb1 hb2
    obtain ⟨f1, f2⟩ := (k Buy hi).1 rfl
    have hlt := (k4 f1).mp f2
    have hle := hr j b b' hb1 hb2
    cases j with
    | zero => rw [e3] at f1; cases f1
    | succ j =>
      have := key j b hb1
      linarith

/-- Closes that rise, ever faster, and then rest. -/
def climbing : List (Bar ℚ) := [1, 2, 3, 4, 5, 6, 7, 8, 9, 10, 11, 20, 40, 60, 60, 60, 60, 61].map fun c => ⟨c, c + 1, c - 1, c, 1⟩

/-- **C135** refuted for the oscillators: in a market where no price is below the one before, each of these sells somewhere. -/
theorem C135_oscillators_refuted :
    (Climbs Bar.o climbing ∧ Climbs Bar.h climbing ∧ Climbs Bar.l climbing ∧ Climbs Bar.c climbing) ∧
    ∀ I ∈ [(PPO 2 5 3 : Strat (XF ℚ)), Stoch 3, KDJ 3, Williams 3, CCIi 3 5, StochRSI 3 3 3 3],
      ∃ s, I.signals (barItem climbing) = .ok s ∧ Sell ∈ s := by
  have key : ∀ f : Bar ℚ → ℚ, (∀ i < 17, ∀ b ∈ climbing[i]?, ∀ b' ∈ climbing[i + 1]?, f b ≤ f b') → Climbs f climbing := by
    intro f h i b b' h1 h2
    refine h i ?_ b h1 b' h2
    have := (List.getElem?_eq_some_iff.mp h2).1
    simp [climbing] at this
    omega
  refine ⟨⟨key _ (by decide +kernel), key _ (by decide +kernel), key _ (by decide +kernel), key _ (by decide +kernel)⟩, ?_⟩
  intro I hI
  simp only [List.mem_cons, List.not_mem_nil, or_false] at hI
  have hx : ∀ I : Strat (XF ℚ), ((I.signals (barItem climbing)).toOption.any fun s => s.contains Sell) = true →
      ∃ s, I.signals (barItem climbing) = .ok s ∧ Sell ∈ s := by
    intro I h
    cases hs : I.signals (barItem climbing) with
    | ok s => rw [hs] at h; exact ⟨s, rfl, by simpa [Except.toOption] using h⟩
    | error e => rw [hs] at h; exact absurd h (by simp [Except.toOption])
  rcases hI with rfl | rfl | rfl | rfl | rfl | rfl <;> exact hx _ (by decide +kernel)

/-- A quiet market whose highs and volume jump while everything else stays: no price is below the one before. -/
def spikes : List (Bar ℚ) := List.replicate 12 ⟨10, 10, 10, 10, 1⟩ ++ [⟨10, 30, 10, 10, 5⟩, ⟨10, 30, 10, 10, 5⟩]

/-- **C135** refuted for `SuperTrend` (default settings) without the condition on the closes. -/
theorem C135_super_trend_refuted :
    (∀ f ∈ [Bar.o, Bar.h, Bar.l, Bar.c], Climbs f spikes) ∧
    (ST 10 3 true : Strat (XF ℚ)).signals (barItem spikes) = .ok (Buy :: List.replicate 12 Hold ++ [Sell]) := by
  refine ⟨fun f hf => ?_, by decide +kernel⟩
  have key : ∀ i < 13, ∀ b ∈ spikes[i]?, ∀ b' ∈ spikes[i + 1]?, f b ≤ f b' := by
    simp only [List.mem_cons, List.not_mem_nil, or_false] at hf
    rcases hf with rfl | rfl | rfl | rfl <;> decide +kernel
  intro i b b' h1 h2
  refine key i ?_ b h1 b' h2
  have := (List.getElem?_eq_some_iff.mp h2).1
  simp [spikes] at this
  omega

/-- The hypotheses are met by a market that rises, and by one that falls. -/
example : Withholds (K := ℚ) Sell 0 (Climbs Bar.c) (MACD (12 : Nat) (9 : Nat) (26 : Nat)) ∧ Climbs Bar.c climbing ∧
    Holds (barItem climbing) climbing ∧ Sinks Bar.c (climbing.map (mirrorB 0)) := by
  refine ⟨(C135_no_sell (by norm_num) (by norm_num)).2.1, C135_oscillators_refuted.1.2.2.2, holds_barItem _, ?_⟩
  intro i b b' h1 h2
  rw [List.getElem?_map] at h1 h2
  obtain ⟨c, hc, rfl⟩ := Option.map_eq_some_iff.mp h1
  obtain ⟨c', hc', rfl⟩ := Option.map_eq_some_iff.mp h2
  have := C135_oscillators_refuted.1.2.2.2 i c c' hc hc'
  simp only [mirrorB_c]
  linarith

/-- And the conditions on the candles asked for by `C135_ut_bot` and `C135_super_trend`. -/
example : (∀ b ∈ climbing, 0 ≤ b.c ∧ b.l ≤ b.h ∧ (b.h + b.l) / 2 ≤ b.c) ∧ (UT 2 1 : Strat (XF ℚ)).signals (barItem climbing) = .ok (Buy :: List.replicate 17 Hold) :=
  ⟨by decide +kernel, by decide +kernel⟩

end Verif.Props
