import Verif.Props.Lines

/-!
# Trailing stops and supertrends (C51, C52)
-/

set_option linter.unusedSectionVars false

namespace Verif.Props
open Verif Verif.Klines Verif.Ta Verif.Ind GoFloat XF

variable {F : Type} [GoFloat F] {K : Type} [Field K] [LinearOrder K] [IsStrictOrderedRing K]

/-! ## The range column -/

theorem trK_nonneg {h l c : Nat → K} (hl : ∀ i, l i ≤ h i) (i : Nat) : 0 ≤ trK h l c i := by
  cases i with
  | zero => exact le_refl _
  | succ k =>
    have := hl (k + 1)
    rw [trK]
    exact le_trans (by linarith) ((le_max_left _ _).trans (le_max_left _ _))

theorem wilderK_nonneg {p : Nat} (hp : 0 < p) {s : K} (hs : 0 ≤ s) {tr : Nat → K} (ht : ∀ i, 0 ≤ tr i) (m : Nat) :
    0 ≤ wilderK p s tr m := by
  have hp1 : (1 : K) ≤ p := by exact_mod_cast hp
  induction m with
  | zero => exact hs
  | succ m ih => exact div_nonneg (add_nonneg (mul_nonneg ih (by linarith)) (ht _)) (by linarith)

/-- `Atr` of numbers consists of numbers, not negative when `low <= high`. -/
theorem atrI_fin (p : Int) (h l c : Nat → K) :
    ∃ a : Nat → K, atrI p (finF h) (finF l) (finF c) = finF a ∧ ((∀ i, l i ≤ h i) → ∀ i, 0 ≤ a i) := by
  by_cases h1 : p < 1
  · exact ⟨fun _ => 0, funext fun i => by rw [atrI, if_pos h1, fl_fin, Int.cast_zero], fun _ _ => le_refl _⟩
  by_cases h2 : p = 1
  · exact ⟨trK h l c, funext fun i => by rw [atrI, if_neg h1, if_pos h2, trF_fin], fun hl i => trK_nonneg hl i⟩
  · refine ⟨_, funext fun i => by rw [atrI, if_neg h1, if_neg h2, atrF_fin (by omega)], fun hl i => ?_⟩
    split
    · exact le_refl _
    · exact wilderK_nonneg (by omega) (rmaK_nonneg (by omega) (fun j _ => trK_nonneg hl j) _).2 (trK_nonneg hl) _

/-- `a` is what `ta.Atr` returns for the bars. -/
def IsAtr (p : Int) (bs : List (Bar K)) (a : Nat → K) : Prop :=
  ∀ as, Ta.Atr (fins (bs.map Bar.h)) (fins (bs.map Bar.l)) (fins (bs.map Bar.c)) p = .ok as →
    as = tab bs.length (finF a)

theorem isAtr {p : Int} {bs : List (Bar K)} {b : Nat → Bar K} (hbs : bs = tab bs.length b) {a : Nat → K}
    (ha : atrI p (finF fun i => (b i).h) (finF fun i => (b i).l) (finF fun i => (b i).c) = finF a)
    (hok : okAtr p bs.length) : IsAtr p bs a := by
  intro as has
  have e : ∀ f : Bar K → K, fins (bs.map f) = tab bs.length (finF fun i => f (b i)) := fun f => by
    conv_lhs => rw [hbs]
    rw [map_tab, fins_tab]
  rw [e, e, e, Atr_ok _ _ _ hok, ha] at has
  exact (Except.ok.inj has).symm

/-! ## C51 -/

/-- The three sides differ. -/
theorem side_ne : Buy ≠ Sell ∧ Buy ≠ Hold ∧ Sell ≠ Buy ∧ Sell ≠ Hold ∧ Hold ≠ Buy ∧ Hold ≠ Sell := by decide

/-- `UT.step` over numbers. -/
theorem ut_step_fin (s pc c w : K) : UT.step (XF.fin s) (.fin pc) (.fin c) (.fin w) = .fin
    (if s < c ∧ s < pc then Max.max s (c - w) else if c < s ∧ pc < s then Min.min s (c + w)
      else if s < c then c - w else c + w) := by
  simp only [UT.step, GoFloat.gt, lt_fin, sub_fin, add_fin, max_fin, min_fin, Bool.and_eq_true, decide_eq_true_iff]
  split
  · rfl
  · split
    · rfl
    · split <;> rfl

/-- One step of the trailing stop: with `s` the previous stop, `pc` and `c` the two closes, `w >= 0` the distance. -/
theorem stop_step {s pc c w t : K} (ht : t = if s < c ∧ s < pc then Max.max s (c - w)
      else if c < s ∧ pc < s then Min.min s (c + w) else if s < c then c - w else c + w) :
    (s < pc → s < c → s ≤ t) ∧ (pc < s → c < s → t ≤ s) ∧
    (0 ≤ w → |c - t| ≤ w ∧ (s < c → t ≤ c) ∧ (c ≤ s → c ≤ t)) ∧
    (0 < w → ((pc < s ∧ t < c) ↔ (pc < s ∧ s < c)) ∧ ((s < pc ∧ c < t) ↔ (s < pc ∧ c ≤ s))) := by
  subst ht
  refine ⟨fun h1 h2 => ?_, fun h1 h2 => ?_, fun hw => ?_, fun hw => ?_⟩
  · rw [if_pos ⟨h2, h1⟩]; exact le_max_left _ _
  · rw [if_neg (by rintro ⟨h, -⟩; exact absurd h (not_lt.mpr h2.le)), if_pos ⟨h2, h1⟩]; exact min_le_left _ _
  · by_cases h1 : s < c ∧ s < pc
    · rw [if_pos h1]
      have h2 : Max.max s (c - w) ≤ c := max_le h1.1.le (by linarith)
      have h3 := le_max_right s (c - w)
      exact ⟨abs_le.mpr ⟨by linarith, by linarith⟩, fun _ => h2, fun h => absurd h1.1 (not_lt.mpr h)⟩
    · rw [if_neg h1]
      by_cases h2 : c < s ∧ pc < s
      · rw [if_pos h2]
        have h3 : c ≤ Min.min s (c + w) := le_min h2.1.le (by linarith)
        have h4 := min_le_right s (c + w)
        exact ⟨abs_le.mpr ⟨by linarith, by linarith⟩, fun h => absurd h2.1 (not_lt.mpr h.le), fun _ => h3⟩
      · rw [if_neg h2]
        split
        · next h => exact ⟨by rw [sub_sub_cancel, abs_of_nonneg hw], fun _ => by linarith, fun h' => absurd h (not_lt.mpr h')⟩
        · next h =>
          refine ⟨by rw [sub_add_cancel_left, abs_neg, abs_of_nonneg hw], fun h' => absurd h' h, fun _ => by linarith⟩
  · constructor
    · refine and_congr_right fun h1 => ?_
      rw [if_neg (by rintro ⟨-, h⟩; exact absurd h (not_lt.mpr h1.le))]
      by_cases h2 : c < s
      · rw [if_pos ⟨h2, h1⟩]
        constructor
        · intro h
          exact absurd (le_min h2.le (by linarith : c ≤ c + w)) (not_le.mpr h)
        · intro h; exact absurd h (not_lt.mpr h2.le)
      · rw [if_neg (by rintro ⟨h, -⟩; exact h2 h)]
        split
        · next h => exact ⟨fun _ => h, fun _ => by linarith⟩
        · next h => exact ⟨fun h' => by linarith, fun h' => absurd h' h⟩
    · refine and_congr_right fun h1 => ?_
      by_cases h2 : s < c
      · rw [if_pos ⟨h2, h1⟩]
        constructor
        · intro h
          exact absurd (max_le h2.le (by linarith : c - w ≤ c)) (not_le.mpr h)
        · intro h; exact absurd h2 (not_lt.mpr h)
      · rw [if_neg (by rintro ⟨h, -⟩; exact h2 h), if_neg (by rintro ⟨-, h⟩; exact absurd h (not_lt.mpr h1.le)),
          if_neg h2]
        exact ⟨fun _ => not_lt.mp h2, fun _ => by linarith⟩

/-- C51: the stop of `UTBot` with distance `loss = Period * atr`.
* While two successive closes are above it, it is raised to `close - loss` when that is higher; while they are below it,
  it is lowered to `close + loss` when that is lower; otherwise it is set anew on the other side of the close.
* It does not fall while two successive closes are above it and does not rise while they are below it.
* It stays within `loss` of the close, below the close after a close above the previous stop and above it otherwise.
* Where `loss > 0`: `Buy` exactly when the close was below the stop and now is above that stop; `Sell` exactly when it
  was above the stop and now is not above it. The second candle gives `Hold`. -/
theorem C51_ut_stop {p q : Int} {it : Item (XF K)} {bs : List (Bar K)} (hb : Holds it bs)
    {d : List (UT.Data (XF K))} {s : List Side} (hd : (UT p q).data it = .ok d) (hs : (UT p q).signals it = .ok s) :
    ∃ stop atr : Nat → K, IsAtr q bs atr ∧ ((∀ b ∈ bs, b.l ≤ b.h) → ∀ i, 0 ≤ atr i) ∧ stop 0 = 0 ∧
      (∀ (i : Nat) (r : UT.Data (XF K)), d[i + 1]? = some r →
        r.close = .fin (col Bar.c bs (i + 1)) ∧ r.value = .fin (stop (i + 1))) ∧
      (∀ i, i + 1 < bs.length →
        let pc := col Bar.c bs i
        let c := col Bar.c bs (i + 1)
        let loss := p * atr (i + 1)
        stop (i + 1) = (if stop i < c ∧ stop i < pc then Max.max (stop i) (c - loss)
          else if c < stop i ∧ pc < stop i then Min.min (stop i) (c + loss)
          else if stop i < c then c - loss else c + loss) ∧
        (stop i < pc → stop i < c → stop i ≤ stop (i + 1)) ∧ (pc < stop i → c < stop i → stop (i + 1) ≤ stop i) ∧
        (0 ≤ loss → |c - stop (i + 1)| ≤ loss ∧ (stop i < c → stop (i + 1) ≤ c) ∧ (c ≤ stop i → c ≤ stop (i + 1))) ∧
        (0 < loss → ∀ side, 1 ≤ i → s[i + 1]? = some side →
          (side = Buy ↔ pc < stop i ∧ stop i < c) ∧ (side = Sell ↔ stop i < pc ∧ c ≤ stop i))) ∧
      (∀ side, s[1]? = some side → side = Hold) := by
  obtain ⟨x, b, hx, hbs, hc, hb0⟩ := hb.cols₀
  obtain ⟨hok, rfl⟩ := yields_inv (UT.makes p q).yields hx hd
  obtain ⟨-, rfl⟩ := signals_inv (UT.signals p q) hx hs
  obtain ⟨a, ea, ha⟩ := atrI_fin q (fun i => (b i).h) (fun i => (b i).l) (fun i => (b i).c)
  have hst : ∀ i, ∃ t, utF p q x i = .fin t := by
    intro i
    induction i with
    | zero => exact ⟨0, by rw [utF, fl_fin, Int.cast_zero]⟩
    | succ k ih =>
      obtain ⟨t, ht⟩ := ih
      rw [utF, ht, hc.cl, hc.hi, hc.lo, ea, fl_fin, mul_fin, ut_step_fin]
      exact ⟨_, rfl⟩
  choose stop hstop using hst
  have hrec : ∀ i, stop (i + 1) = if stop i < (b (i + 1)).c ∧ stop i < (b i).c then
      Max.max (stop i) ((b (i + 1)).c - p * a (i + 1))
      else if (b (i + 1)).c < stop i ∧ (b i).c < stop i then Min.min (stop i) ((b (i + 1)).c + p * a (i + 1))
      else if stop i < (b (i + 1)).c then (b (i + 1)).c - p * a (i + 1) else (b (i + 1)).c + p * a (i + 1) := by
    intro i
    have := hstop (i + 1)
    rw [utF, hstop, hc.cl, hc.hi, hc.lo, ea, fl_fin, mul_fin, ut_step_fin, fin_inj] at this
    exact this.symm
  have ec : ∀ j, j < bs.length → col Bar.c bs j = (b j).c := fun j hj => by
    conv_lhs => rw [hbs]
    exact col_tab _ b hj
  refine ⟨stop, a, isAtr hbs ea hok, fun hw => ha fun i => ?_, ?_, fun i r hr => ?_, fun i hi => ?_, fun side h1 => ?_⟩
  · by_cases hi : i < bs.length
    · exact hw _ (by rw [hbs]; exact mem_tab.mpr ⟨i, hi, rfl⟩)
    · rw [hb0 i (by omega)]
  · have := hstop 0
    rw [utF, fl_fin, Int.cast_zero, fin_inj] at this
    exact this.symm
  · have hi : i + 1 < bs.length := by simpa using (List.getElem?_eq_some_iff.mp hr).1
    rw [tab_getElem?_lt hi] at hr
    cases hr
    refine ⟨?_, hstop (i + 1)⟩
    rw [ec _ hi]
    show Ind.cl x (i + 1) = _
    rw [hc.cl]
  · intro pc c loss
    have epc : pc = (b i).c := ec i (by omega)
    have ecc : c = (b (i + 1)).c := ec (i + 1) hi
    obtain ⟨h1, h2, h3, h4⟩ := stop_step (hrec i)
    rw [← ecc] at h3
    rw [← epc, ← ecc] at h1 h2 h4
    refine ⟨by rw [epc, ecc]; exact hrec i, h1, h2, h3, fun hl side hi1 hsd => ?_⟩
    obtain ⟨h5, h6⟩ := h4 hl
    rw [tab_getElem?_lt hi] at hsd
    cases hsd
    obtain ⟨k, rfl⟩ : ∃ k, i = k + 1 := ⟨i - 1, by omega⟩
    rw [← h5, ← h6]
    have eo : ∀ j, UT.out p q x (j + 1) = ⟨ti x (j + 1), .fin (b (j + 1)).c, .fin (stop (j + 1))⟩ := fun j => by
      rw [UT.out, hstop, hc.cl]
    show (UT.rule (UT.out p q x (k + 1)) (UT.out p q x (k + 1 + 1)) = Buy ↔ _) ∧ (UT.rule _ _ = Sell ↔ _)
    rw [eo, eo, ← epc, ← ecc]
    generalize stop (k + 1) = s0
    generalize stop (k + 1 + 1) = s1
    simp only [UT.rule, GoFloat.gt, lt_fin]
    by_cases g1 : s1 < c <;> by_cases g2 : pc < s0 <;> by_cases g3 : c < s1 <;> by_cases g4 : s0 < pc <;>
      first
      | exact absurd (g1.trans g3) (lt_irrefl _)
      | exact absurd (g2.trans g4) (lt_irrefl _)
      | simp [g1, g2, g3, g4, side_ne]
  · have hi : 1 < bs.length := by simpa using (List.getElem?_eq_some_iff.mp h1).1
    rw [tab_getElem?_lt hi] at h1
    cases h1
    show UT.rule (UT.out p q x 0) (UT.out p q x 1) = Hold
    have e0 : UT.out p q x 0 = UT.zero := rfl
    rw [e0]
    simp [UT.rule, UT.zero, GoFloat.gt]

/-- Bars with close 10, 10, 1, 15 for the examples. -/
def swingBars : List (Bar ℚ) := [⟨10, 10, 10, 10, 0⟩, ⟨10, 11, 9, 10, 0⟩, ⟨10, 10, 1, 1, 0⟩, ⟨13, 15, 13, 15, 0⟩]

example : (UT 1 1).data (barItem swingBars) = .ok [⟨zeroUnix, .fin 0, .fin 0⟩, ⟨0, .fin 10, .fin 8⟩, ⟨0, .fin 1, .fin 10⟩,
      ⟨0, .fin 15, .fin 1⟩] ∧
    (UT 1 1).signals (barItem swingBars) = .ok [Buy, Hold, Sell, Buy] := by
  refine ⟨by decide +kernel, by decide +kernel⟩

/-! ## C52 -/

/-- `Natr` of numbers consists of numbers, not negative when `low <= high` and `close >= 0`. -/
theorem natrI_fin (p : Int) (h l c : Nat → K) :
    ∃ a : Nat → K, natrI p (finF h) (finF l) (finF c) = finF a := by
  by_cases h1 : p < 1
  · exact ⟨fun _ => 0, funext fun i => by rw [natrI, if_pos h1, fl_fin, Int.cast_zero]⟩
  by_cases h2 : p = 1
  · exact ⟨trK h l c, funext fun i => by rw [natrI, if_neg h1, if_pos h2, trF_fin]⟩
  · have hq : 0 < p.toNat := by omega
    have key : ∀ i, ∃ a, natrI p (finF h) (finF l) (finF c) i = .fin a := fun i => by
      rw [natrI, if_neg h1, if_neg h2, natrF, trF_fin, smaF_fin hq, wilder_fin hq]
      have e0 : (fl 0 : XF K) = .fin 0 := by simp
      have e100 : (fl 100 : XF K) = .fin 100 := by simp
      have ec : finF c i = .fin (c i) := rfl
      rw [e0, e100, ec, eq_fin]
      by_cases h3 : i < p.toNat
      · exact ⟨_, if_pos h3⟩
      · rw [if_neg h3]
        by_cases h4 : c i = 0
        · exact ⟨_, if_pos (by simpa using h4)⟩
        · rw [if_neg (by simpa using h4), div_fin h4, mul_fin]
          exact ⟨_, rfl⟩
    choose a ha using key
    exact ⟨a, funext ha⟩

theorem smaF_finite (p : Nat) (a : Nat → K) : ∃ r : Nat → K, smaF p (finF a) = finF r := by
  rcases Nat.eq_zero_or_pos p with rfl | hp
  · exact ⟨fun _ => 0, funext fun i => smaF_zero a i⟩
  · exact ⟨_, funext fun i => smaF_fin hp a i⟩

/-- `r` is the range column of `SuperTrend`: what `ta.Atr` returns, or the `ta.Sma` of what `ta.Natr` returns. -/
def IsRange (p : Int) (changeAtr : Bool) (bs : List (Bar K)) (r : Nat → K) : Prop :=
  if changeAtr then IsAtr p bs r
  else ∀ ns as, Ta.Natr (fins (bs.map Bar.h)) (fins (bs.map Bar.l)) (fins (bs.map Bar.c)) p = .ok ns →
    Ta.Sma p ns = .ok as → as = tab bs.length (finF r)

theorem st_step_fin (s : ST.St (XF K)) (up dn : K) (bull : Bool) (hu : s.up = .fin up) (hdn : s.dn = .fin dn)
    (ht : s.trend = .fin (if bull then 1 else -1)) (src band pc c : K) :
    let up' := if up < pc then Max.max (src - band) up else src - band
    let dn' := if pc < dn then Min.min (src + band) dn else src + band
    let bull' := if bull then !decide (c < up) else decide (dn < c)
    ST.step s (.fin src) (.fin band) (.fin pc) (.fin c) = ⟨.fin up', .fin dn', .fin (if bull' then 1 else -1),
      .fin (if !bull && bull' then up' else 0), .fin (if bull && !bull' then dn' else 0)⟩ := by
  intro up' dn' bull'
  have h1 : (-1 : K) ≠ 1 := by
    intro h
    have : (0 : K) < 0 := by linarith [zero_lt_one (α := K)]
    exact lt_irrefl _ this
  have eu : (if up < pc then XF.fin (Max.max (src - band) up) else XF.fin (src - band)) = XF.fin up' := by
    show _ = XF.fin (ite _ _ _)
    split <;> rfl
  have ed : (if pc < dn then XF.fin (Min.min (src + band) dn) else XF.fin (src + band)) = XF.fin dn' := by
    show _ = XF.fin (ite _ _ _)
    split <;> rfl
  have en : ∀ (a : K) (z : XF K), Nz (XF.fin a) z = XF.fin a := fun a z => rfl
  have f0 : (fl 0 : XF K) = .fin 0 := by simp
  have f1 : (fl 1 : XF K) = .fin 1 := by simp
  have fm1 : (fl (-1) : XF K) = .fin (-1) := by simp
  simp only [ST.step, hu, hdn, ht, sub_fin, add_fin, en, max_fin, min_fin, f0, f1, fm1, eq_fin, lt_fin, GoFloat.gt, decide_eq_true_iff, eu, ed,
    bull']
  cases bull
  · by_cases h : dn < c <;> simp [h, h1, h1.symm]
  · by_cases h : c < up <;> simp [h, h1, h1.symm]

/-- C52, `SuperTrend`: with `r` the range column there are bands `up`, `dn` (the stored ones) and a direction `bull`
such that for every candle after the first
* `up` and `dn` are `(high+low)/2 ∓ AtrMultiplier * r`, held at the previous band while the previous close is inside it:
  so `up` does not fall while the close is above it and `dn` does not rise while the close is below it;
* the direction turns down exactly when the close falls below the previous `up`, and up exactly when it rises above
  the previous `dn`;
* the signal is `Buy` exactly at a turn up with `up` not 0 and `Sell` exactly at a turn down with `dn` not 0.

Partial: at a turn where the new band is exactly 0 there is no signal (`C52_zero_band_refuted`). -/
theorem C52_supertrend_partial {p m : Int} {chg : Bool} {it : Item (XF K)} {bs : List (Bar K)} (hb : Holds it bs)
    {d : List (ST.Data (XF K))} {s : List Side} (hd : (ST p m chg).data it = .ok d)
    (hs : (ST p m chg).signals it = .ok s) :
    ∃ (up dn r : Nat → K) (bull : Nat → Bool), IsRange p chg bs r ∧ up 0 = 0 ∧ dn 0 = 0 ∧ bull 0 = true ∧
      (∀ (i : Nat) (v : ST.Data (XF K)), d[i]? = some v → v.up = .fin (up i) ∧ v.down = .fin (dn i)) ∧
      ∀ i, i + 1 < bs.length →
        let mid := (col Bar.h bs (i + 1) + col Bar.l bs (i + 1)) / 2
        let pc := col Bar.c bs i
        let c := col Bar.c bs (i + 1)
        up (i + 1) = (if up i < pc then Max.max (mid - m * r (i + 1)) (up i) else mid - m * r (i + 1)) ∧
        dn (i + 1) = (if pc < dn i then Min.min (mid + m * r (i + 1)) (dn i) else mid + m * r (i + 1)) ∧
        (up i < pc → up i ≤ up (i + 1)) ∧ (pc < dn i → dn (i + 1) ≤ dn i) ∧
        (bull i = true → (bull (i + 1) = false ↔ c < up i)) ∧ (bull i = false → (bull (i + 1) = true ↔ dn i < c)) ∧
        (∀ side, s[i + 1]? = some side →
          (side = Buy ↔ bull i = false ∧ bull (i + 1) = true ∧ up (i + 1) ≠ 0) ∧
          (side = Sell ↔ bull i = true ∧ bull (i + 1) = false ∧ dn (i + 1) ≠ 0)) := by
  obtain ⟨x, b, hx, hbs, hc, hb0⟩ := hb.cols₀
  obtain ⟨⟨hok, hok2⟩, rfl⟩ := yields_inv (ST.makes p m chg).yields hx hd
  obtain ⟨-, rfl⟩ := signals_inv (ST.signals p m chg) hx hs
  obtain ⟨r, er, hr⟩ : ∃ r : Nat → K, stAtr p chg x = finF r ∧ IsRange p chg bs r := by
    cases chg
    · obtain ⟨a, ea⟩ := natrI_fin p (fun i => (b i).h) (fun i => (b i).l) (fun i => (b i).c)
      obtain ⟨r, er⟩ := smaF_finite p.toNat a
      refine ⟨r, ?_, ?_⟩
      · rw [stAtr, if_neg (by simp), hc.hi, hc.lo, hc.cl, ea, er]
      · rw [IsRange, if_neg (by simp)]
        intro ns as h1 h2
        have e : ∀ f : Bar K → K, fins (bs.map f) = tab bs.length (finF fun i => f (b i)) := fun f => by
          conv_lhs => rw [hbs]
          rw [map_tab, fins_tab]
        rw [e, e, e, Natr_ok _ _ _ hok, ea] at h1
        cases h1
        rw [Sma_ok _ (hok2 rfl), er] at h2
        exact (Except.ok.inj h2).symm
    · obtain ⟨a, ea, -⟩ := atrI_fin p (fun i => (b i).h) (fun i => (b i).l) (fun i => (b i).c)
      refine ⟨a, ?_, ?_⟩
      · rw [stAtr, if_pos rfl, hc.hi, hc.lo, hc.cl, ea]
      · rw [IsRange, if_pos rfl]
        exact isAtr hbs ea hok
  have f0 : (fl 0 : XF K) = .fin 0 := by simp
  have f1 : (fl 1 : XF K) = .fin 1 := by simp
  have esrc : ∀ i, (Ind.hi x i +. Ind.lo x i) /. fl 2 = .fin (((b i).h + (b i).l) / 2) := fun i => by
    have e2 : (fl 2 : XF K) = .fin 2 := by simp
    rw [hc.hi, hc.lo, e2, add_fin, div_fin two_ne_zero]
  have hst : ∀ i, ∃ (up dn : K) (bull : Bool), (stF p m chg x i).up = .fin up ∧ (stF p m chg x i).dn = .fin dn ∧
      (stF p m chg x i).trend = .fin (if bull then 1 else -1) := by
    intro i
    induction i with
    | zero => exact ⟨0, 0, true, f0, f0, by simp [stF, ST.init]⟩
    | succ k ih =>
      obtain ⟨up, dn, bull, h1, h2, h3⟩ := ih
      rw [stF, esrc, er, fl_fin, mul_fin, hc.cl, st_step_fin _ up dn bull h1 h2 h3]
      exact ⟨_, _, _, rfl, rfl, rfl⟩
  choose up dn bull hup hdn hbull using hst
  have key : ∀ i, _ := fun i =>
    st_step_fin (stF p m chg x i) (up i) (dn i) (bull i) (hup i) (hdn i) (hbull i)
      (((b (i + 1)).h + (b (i + 1)).l) / 2) (m * r (i + 1)) (b i).c (b (i + 1)).c
  have estep : ∀ i, stF p m chg x (i + 1) = ST.step (stF p m chg x i)
      (.fin (((b (i + 1)).h + (b (i + 1)).l) / 2)) (.fin (m * r (i + 1))) (.fin (b i).c) (.fin (b (i + 1)).c) :=
    fun i => by rw [stF, esrc, er, fl_fin, mul_fin, hc.cl]
  have ec : ∀ (f : Bar K → K) j, j < bs.length → col f bs j = f (b j) := fun f j hj => by
    conv_lhs => rw [hbs]
    exact col_tab _ b hj
  have h1 : (-1 : K) ≠ 1 := by
    intro h
    have : (0 : K) < 0 := by linarith [zero_lt_one (α := K)]
    exact lt_irrefl _ this
  refine ⟨up, dn, r, bull, hr, ?_, ?_, ?_, fun i v hv => ?_, fun i hi => ?_⟩
  · have := hup 0
    rw [stF, ST.init, f0, fin_inj] at this
    exact this.symm
  · have := hdn 0
    rw [stF, ST.init, f0, fin_inj] at this
    exact this.symm
  · have := hbull 0
    rw [stF, ST.init, f1, fin_inj] at this
    by_contra h
    rw [Bool.not_eq_true] at h
    rw [h] at this
    exact h1 (by simpa using this.symm)
  · have hi : i < bs.length := by simpa using (List.getElem?_eq_some_iff.mp hv).1
    rw [tab_getElem?_lt hi] at hv
    cases hv
    exact ⟨hup i, hdn i⟩
  · intro mid pc c
    have em : mid = ((b (i + 1)).h + (b (i + 1)).l) / 2 := by
      show (col Bar.h bs (i + 1) + col Bar.l bs (i + 1)) / 2 = _
      rw [ec _ _ hi, ec _ _ hi]
    have epc : pc = (b i).c := ec _ i (by omega)
    have ecc : c = (b (i + 1)).c := ec _ (i + 1) hi
    have k := key i
    simp only [← em, ← epc, ← ecc] at k
    have k2 := estep i
    rw [← em, ← epc, ← ecc, k] at k2
    have g1 : up (i + 1) = (if up i < pc then Max.max (mid - m * r (i + 1)) (up i) else mid - m * r (i + 1)) := by
      have := hup (i + 1)
      rw [k2, fin_inj] at this
      exact this.symm
    have g2 : dn (i + 1) = (if pc < dn i then Min.min (mid + m * r (i + 1)) (dn i) else mid + m * r (i + 1)) := by
      have := hdn (i + 1)
      rw [k2, fin_inj] at this
      exact this.symm
    have g3 : bull (i + 1) = if bull i then !decide (c < up i) else decide (dn i < c) := by
      have := hbull (i + 1)
      rw [k2, fin_inj] at this
      generalize bull (i + 1) = y at this
      generalize (if bull i then !decide (c < up i) else decide (dn i < c)) = z at this
      cases y <;> cases z <;> first | rfl | (simp at this; first | exact absurd this h1 | exact absurd this h1.symm)
    refine ⟨g1, g2, fun h => ?_, fun h => ?_, fun h => ?_, fun h => ?_, fun side hsd => ?_⟩
    · rw [g1, if_pos h]; exact le_max_right _ _
    · rw [g2, if_pos h]; exact min_le_right _ _
    · rw [g3, h]; simp
    · rw [g3, h]; simp
    · rw [tab_getElem?_lt hi] at hsd
      cases hsd
      show (ST.rule (ST.out p m chg x (i + 1)) = Buy ↔ _) ∧ (ST.rule (ST.out p m chg x (i + 1)) = Sell ↔ _)
      rw [ST.rule, ST.out, k2, ← g1, ← g2, ← g3, f0, eq_fin, eq_fin]
      generalize bull i = y0
      generalize bull (i + 1) = y1
      generalize up (i + 1) = u
      generalize dn (i + 1) = w
      cases y0 <;> cases y1 <;> by_cases hu : u = 0 <;> by_cases hw : w = 0 <;> simp [hu, hw, side_ne]

/-- C52, positive prices: with `AtrMultiplier >= 0` and the classic range every turn down gives `Sell`. -/
theorem C52_turn_down_sells {p m : Int} (hm : 0 ≤ m) {it : Item (XF K)} {bs : List (Bar K)} (hb : Holds it bs)
    (hw : ∀ b ∈ bs, 0 < b.l ∧ b.l ≤ b.h ∧ 0 < b.c)
    {d : List (ST.Data (XF K))} (hd : (ST p m true).data it = .ok d) {i : Nat} {v : ST.Data (XF K)}
    (hv : d[i + 1]? = some v) : ∃ w, v.down = .fin w ∧ 0 < w := by
  obtain ⟨x, b, hx, hbs, hc, hb0⟩ := hb.cols₀
  obtain ⟨⟨hok, hok2⟩, rfl⟩ := yields_inv (ST.makes p m true).yields hx hd
  have hs := (ST.signals p m true it _ x hx).1 ⟨hok, hok2⟩
  obtain ⟨up, dn, r, bull, hr, -, h0, -, hrec, hstep⟩ := C52_supertrend_partial hb hd hs
  have hi : i + 1 < bs.length := by simpa using (List.getElem?_eq_some_iff.mp hv).1
  obtain ⟨a, ea, ha⟩ := atrI_fin p (fun i => (b i).h) (fun i => (b i).l) (fun i => (b i).c)
  have hr' : ∀ j < bs.length, 0 ≤ r j := by
    rw [IsRange, if_pos rfl] at hr
    have e : ∀ f : Bar K → K, fins (bs.map f) = tab bs.length (finF fun i => f (b i)) := fun f => by
      conv_lhs => rw [hbs]
      rw [map_tab, fins_tab]
    have := hr (tab bs.length (finF a)) (by rw [e, e, e, Atr_ok _ _ _ hok, ea])
    intro j hj
    have := tab_inj this hj
    rw [← (fin_inj.mp this)]
    refine ha (fun i => ?_) j
    by_cases hi : i < bs.length
    · exact (hw _ (by rw [hbs]; exact mem_tab.mpr ⟨i, hi, rfl⟩)).2.1
    · rw [hb0 i (by omega)]
  have ec : ∀ (f : Bar K → K) j, j < bs.length → ∃ q ∈ bs, col f bs j = f q := fun f j hj => by
    refine ⟨b j, by rw [hbs]; exact mem_tab.mpr ⟨j, hj, rfl⟩, ?_⟩
    conv_lhs => rw [hbs]
    exact col_tab _ b hj
  have hpos : ∀ j, j + 1 < bs.length → 0 < dn (j + 1) := by
    intro j
    have base : j + 1 < bs.length →
        0 < (col Bar.h bs (j + 1) + col Bar.l bs (j + 1)) / 2 + m * r (j + 1) := fun hj => by
      obtain ⟨q, hq, e1⟩ := ec Bar.h (j + 1) hj
      obtain ⟨q', hq', e2⟩ := ec Bar.l (j + 1) hj
      rw [e1, e2]
      have h1 := hw q hq
      have h2 := hw q' hq'
      have h3 : (0 : K) ≤ m * r (j + 1) := mul_nonneg (by exact_mod_cast hm) (hr' _ hj)
      have h4 : 0 < (q.h + q'.l) / 2 := by linarith
      linarith
    induction j with
    | zero =>
      intro hj
      obtain ⟨-, g2, -⟩ := hstep 0 hj
      obtain ⟨q, hq, e1⟩ := ec Bar.c 0 (by omega)
      rw [g2, h0, e1, if_neg (not_lt.mpr (hw q hq).2.2.le)]
      exact base hj
    | succ k ih =>
      intro hj
      obtain ⟨-, g2, -⟩ := hstep (k + 1) hj
      have hk := ih (fun hj' => by
        obtain ⟨q, hq, e1⟩ := ec Bar.h (k + 1) hj'
        obtain ⟨q', hq', e2⟩ := ec Bar.l (k + 1) hj'
        rw [e1, e2]
        have h1 := hw q hq
        have h2 := hw q' hq'
        have h3 : (0 : K) ≤ m * r (k + 1) := mul_nonneg (by exact_mod_cast hm) (hr' _ hj')
        have h4 : 0 < (q.h + q'.l) / 2 := by linarith
        linarith) (by omega)
      rw [g2]
      split
      · exact lt_min (base hj) hk
      · exact base hj
  exact ⟨_, (hrec _ _ hv).2, hpos i hi⟩

/-- C52 refuted without the exception: closes 10, 10, 1, 15; at the last candle the close 15 rises above the upper
band 14.5 of a falling trend, the new lower band is exactly 0, and no signal is given. -/
theorem C52_zero_band_refuted :
    let bs : List (Bar ℚ) := [⟨10, 10, 10, 10, 0⟩, ⟨10, 10, 10, 10, 0⟩, ⟨10, 10, 1, 1, 0⟩, ⟨13, 15, 13, 15, 0⟩]
    (ST 1 1 true).data (barItem bs) = .ok [⟨0, .fin 0, .fin 0, .fin 0, .fin 0⟩, ⟨0, .fin 10, .fin 0, .fin 10, .fin 0⟩,
        ⟨0, .fin (-7 / 2), .fin 0, .fin (29 / 2), .fin (29 / 2)⟩, ⟨0, .fin 0, .fin 0, .fin (29 / 2), .fin 0⟩] ∧
    (ST 1 1 true).signals (barItem bs) = .ok [Buy, Hold, Sell, Hold] := by
  refine ⟨by decide +kernel, by decide +kernel⟩

example : (ST 1 1 true).signals (barItem ([⟨10, 10, 10, 10, 0⟩, ⟨10, 10, 10, 10, 0⟩, ⟨10, 10, 1, 1, 0⟩,
    ⟨13, 15, 12, 15, 0⟩] : List (Bar ℚ))) = .ok [Buy, Hold, Sell, Buy] := by decide +kernel

/-! ### Pivot point supertrend -/

theorem pivotHighF_fin (l r : Nat) (a : Nat → K) : ∃ v : Nat → K, pivotHighF l r (finF a) = finF v := by
  have key : ∀ i, ∃ v, pivotHighF l r (finF a) i = .fin v := fun i => by
    rw [pivotHighF]
    have f0 : (fl 0 : XF K) = .fin 0 := by simp
    split
    · exact ⟨0, f0⟩
    · split
      · exact ⟨0, f0⟩
      · next m _ =>
        split
        · next h =>
          have h : (XF.fin (a (i - r)) ==. m) = true := h
          cases m with
          | fin m => exact ⟨m, rfl⟩
          | _ => cases h
        · exact ⟨0, f0⟩
  choose v hv using key
  exact ⟨v, funext hv⟩

theorem pivotLowF_fin (l r : Nat) (a : Nat → K) : ∃ v : Nat → K, pivotLowF l r (finF a) = finF v := by
  have key : ∀ i, ∃ v, pivotLowF l r (finF a) i = .fin v := fun i => by
    rw [pivotLowF]
    have f0 : (fl 0 : XF K) = .fin 0 := by simp
    split
    · exact ⟨0, f0⟩
    · split
      · exact ⟨0, f0⟩
      · next m _ =>
        split
        · next h =>
          have h : (XF.fin (a (i - r)) ==. m) = true := h
          cases m with
          | fin m => exact ⟨m, rfl⟩
          | _ => cases h
        · exact ⟨0, f0⟩
  choose v hv using key
  exact ⟨v, funext hv⟩

/-- The centre line after a pivot value `ph` (high) or `pl` (low); 0 means no pivot. -/
def nextCenter (cen ph pl : K) : K :=
  let v := if 0 < ph then ph else if 0 < pl then pl else 0
  if v = 0 then cen else if cen = 0 then v else (2 * cen + v) / 3

theorem ppst_step_fin (cen up dn ph pl band pc c : K) (t : Int) :
    PPST.step ⟨.fin cen, .fin up, .fin dn, t⟩ (XF.fin ph) (.fin pl) (.fin band) (.fin pc) (.fin c) =
      ⟨.fin (nextCenter cen ph pl),
       .fin (if up < pc then Max.max (nextCenter cen ph pl - band) up else nextCenter cen ph pl - band),
       .fin (if pc < dn then Min.min (nextCenter cen ph pl + band) dn else nextCenter cen ph pl + band),
       if dn < c then 1 else if c < up then -1 else t⟩ := by
  have f0 : (fl 0 : XF K) = .fin 0 := by simp
  have f2 : (fl 2 : XF K) = .fin 2 := by simp
  have f3 : (fl 3 : XF K) = .fin 3 := by simp
  have e1 : (if 0 < ph then XF.fin ph else if 0 < pl then XF.fin pl else XF.fin 0) =
      XF.fin (if 0 < ph then ph else if 0 < pl then pl else 0) := by
    split
    · rfl
    · split <;> rfl
  simp only [PPST.step, f0, f2, f3, lt_fin, eq_fin, GoFloat.gt, decide_eq_true_iff, e1, mul_fin, add_fin]
  rw [nextCenter]
  generalize (if 0 < ph then ph else if 0 < pl then pl else 0) = v
  have e2 : (if (!decide (v = 0)) = true then (if cen = 0 then XF.fin v else XF.fin (cen * 2 + v) /. XF.fin 3)
      else XF.fin cen) = XF.fin (if v = 0 then cen else if cen = 0 then v else (2 * cen + v) / 3) := by
    by_cases h : v = 0
    · simp [h]
    · by_cases h' : cen = 0
      · simp [h, h']
      · simp only [h, h', decide_false, Bool.not_false, if_true, if_false]
        rw [div_fin three_ne_zero, mul_comm]
  rw [e2]
  simp only [sub_fin, add_fin, max_fin, min_fin]
  congr 1
  · split <;> rfl
  · split <;> rfl

/-- C52, `PivotPointSuperTrend`: with `r` the `ta.Atr` column and `ph`, `pl` the pivot columns there are a centre line,
bands and a direction in `{-1, 0, 1}` (0 only before the first decision) such that for every candle after the first
* the bands lie `AtrFactor * r` around the centre and are held as in `C52_supertrend_partial`;
* the direction becomes 1 exactly when the close is above the previous upper band and otherwise -1 when it is below the
  previous lower band, else stays;
* the record shows the band of the current direction, in `UpTrend`/`DownTrend` when the direction is unchanged and in
  the `Begin` fields when it turned;
* `Buy` exactly at a turn from -1 to 1 with the lower band not 0, `Sell` exactly at a turn from 1 to -1 with the upper
  band not 0. -/
theorem C52_pivot_supertrend_partial {p q : Int} {f : K} {it : Item (XF K)} {bs : List (Bar K)} (hb : Holds it bs)
    {d : List (ST.Data (XF K))} {s : List Side} (hd : (PPST p q (XF.fin f)).data it = .ok d)
    (hs : (PPST p q (XF.fin f)).signals it = .ok s) :
    ∃ (cen up dn r ph pl : Nat → K) (t : Nat → Int), IsAtr q bs r ∧
      Ta.PivotHigh (fins (bs.map Bar.h)) p p = .ok (tab bs.length (finF ph)) ∧
      Ta.PivotLow (fins (bs.map Bar.l)) p p = .ok (tab bs.length (finF pl)) ∧
      cen 0 = 0 ∧ up 0 = 0 ∧ dn 0 = 0 ∧ t 0 = 0 ∧
      ∀ i, i + 1 < bs.length →
        let pc := col Bar.c bs i
        let c := col Bar.c bs (i + 1)
        cen (i + 1) = nextCenter (cen i) (ph (i + 1)) (pl (i + 1)) ∧
        up (i + 1) = (if up i < pc then Max.max (cen (i + 1) - f * r (i + 1)) (up i) else cen (i + 1) - f * r (i + 1)) ∧
        dn (i + 1) = (if pc < dn i then Min.min (cen (i + 1) + f * r (i + 1)) (dn i) else cen (i + 1) + f * r (i + 1)) ∧
        (up i < pc → up i ≤ up (i + 1)) ∧ (pc < dn i → dn (i + 1) ≤ dn i) ∧
        t (i + 1) = (if dn i < c then 1 else if c < up i then -1 else t i) ∧
        (∀ v : ST.Data (XF K), d[i + 1]? = some v →
          v.up = .fin (if t (i + 1) = 1 ∧ t i = 1 then up (i + 1) else 0) ∧
          v.upBegin = .fin (if t (i + 1) = 1 ∧ t i = -1 then up (i + 1) else 0) ∧
          v.down = .fin (if t (i + 1) = -1 ∧ t i = -1 then dn (i + 1) else 0) ∧
          v.downBegin = .fin (if t (i + 1) = -1 ∧ t i = 1 then dn (i + 1) else 0)) ∧
        (∀ side, s[i + 1]? = some side →
          (side = Buy ↔ t i = -1 ∧ t (i + 1) = 1 ∧ up (i + 1) ≠ 0) ∧
          (side = Sell ↔ t i = 1 ∧ t (i + 1) = -1 ∧ dn (i + 1) ≠ 0)) := by
  obtain ⟨x, b, hx, hbs, hc⟩ := hb.cols
  obtain ⟨⟨hp, hok⟩, rfl⟩ := yields_inv (PPST.makes p q (XF.fin f)).yields hx hd
  obtain ⟨-, rfl⟩ := signals_inv (PPST.signals p q (XF.fin f)) hx hs
  obtain ⟨r, er, -⟩ := atrI_fin q (fun i => (b i).h) (fun i => (b i).l) (fun i => (b i).c)
  obtain ⟨ph, eph⟩ := pivotHighF_fin p.toNat p.toNat fun i => (b i).h
  obtain ⟨pl, epl⟩ := pivotLowF_fin p.toNat p.toNat fun i => (b i).l
  have f0 : (fl 0 : XF K) = .fin 0 := by simp
  have hst : ∀ i, ∃ (cen up dn : K) (t : Int), ppstF p q (XF.fin f) x i = ⟨.fin cen, .fin up, .fin dn, t⟩ := by
    intro i
    induction i with
    | zero => exact ⟨0, 0, 0, 0, by rw [ppstF, PPST.init, f0]⟩
    | succ k ih =>
      obtain ⟨cen, up, dn, t, h⟩ := ih
      rw [ppstF, h, hc.cl, hc.hi, hc.lo, er, eph, epl, mul_fin, ppst_step_fin]
      exact ⟨_, _, _, _, rfl⟩
  choose cen up dn t hst using hst
  have hrec : ∀ i, _ := fun i => (hst (i + 1)).symm.trans (show ppstF p q (XF.fin f) x (i + 1) = _ by
    rw [ppstF, hst, hc.cl, hc.hi, hc.lo, er, eph, epl, mul_fin, ppst_step_fin])
  have e : ∀ g : Bar K → K, fins (bs.map g) = tab bs.length (finF fun i => g (b i)) := fun g => by
    conv_lhs => rw [hbs]
    rw [map_tab, fins_tab]
  have ec : ∀ j, j < bs.length → col Bar.c bs j = (b j).c := fun j hj => by
    conv_lhs => rw [hbs]
    exact col_tab _ b hj
  have h0 := hst 0
  rw [ppstF, PPST.init, f0] at h0
  simp only [PPST.St.mk.injEq, fin_inj] at h0
  refine ⟨cen, up, dn, r, ph, pl, t, isAtr hbs er hok, ?_, ?_, h0.1.symm, h0.2.1.symm, h0.2.2.1.symm, h0.2.2.2.symm,
    fun i hi => ?_⟩
  · rw [e, PivotHigh_ok _ _ hp, eph]
  · rw [e, PivotLow_ok _ _ hp, epl]
  · intro pc c
    have epc : pc = (b i).c := ec i (by omega)
    have ecc : c = (b (i + 1)).c := ec (i + 1) hi
    have k := hrec i
    simp only [PPST.St.mk.injEq, fin_inj, ← epc, ← ecc] at k
    obtain ⟨k1, k2, k3, k4⟩ := k
    rw [← k1] at k2 k3
    have hrec : ∀ v : ST.Data (XF K), PPST.out p q (XF.fin f) x (i + 1) = v →
          v.up = .fin (if t (i + 1) = 1 ∧ t i = 1 then up (i + 1) else 0) ∧
          v.upBegin = .fin (if t (i + 1) = 1 ∧ t i = -1 then up (i + 1) else 0) ∧
          v.down = .fin (if t (i + 1) = -1 ∧ t i = -1 then dn (i + 1) else 0) ∧
          v.downBegin = .fin (if t (i + 1) = -1 ∧ t i = 1 then dn (i + 1) else 0) := by
      rintro v rfl
      rw [PPST.out, PPST.emit, hst, hst, f0]
      clear k1 k2 k3 k4 hrec epc ecc
      generalize t (i + 1) = t1
      generalize t i = t0
      generalize up (i + 1) = u
      generalize dn (i + 1) = w
      by_cases h1 : t1 = 1
      · subst h1
        by_cases h2 : t0 = 1
        · subst h2; simp
        · by_cases h3 : t0 = -1
          · subst h3; simp
          · simp [h2, h3]
      · by_cases h2 : t1 = -1
        · subst h2
          by_cases h2 : t0 = 1
          · subst h2; simp
          · by_cases h3 : t0 = -1
            · subst h3; simp
            · simp [h2, h3]
        · simp [h1, h2]
    refine ⟨k1, k2, k3, fun h => ?_, fun h => ?_, k4, fun v hv => ?_, fun side hsd => ?_⟩
    · rw [k2, if_pos h]; exact le_max_right _ _
    · rw [k3, if_pos h]; exact min_le_right _ _
    · rw [tab_getElem?_lt hi] at hv
      exact hrec v (Option.some.inj hv)
    · rw [tab_getElem?_lt hi] at hsd
      cases hsd
      show (ST.rule (PPST.out p q (XF.fin f) x (i + 1)) = Buy ↔ _) ∧ (ST.rule (PPST.out p q (XF.fin f) x (i + 1)) = Sell ↔ _)
      obtain ⟨-, g1, -, g2⟩ := hrec _ rfl
      rw [ST.rule, g1, g2, f0, eq_fin, eq_fin]
      generalize up (i + 1) = u
      generalize dn (i + 1) = w
      by_cases h1 : t (i + 1) = 1
      · by_cases h2 : t i = -1
        · by_cases hu : u = 0 <;> simp [h1, h2, hu, side_ne]
        · simp [h1, h2, side_ne]
      · by_cases h3 : t (i + 1) = -1
        · by_cases h2 : t i = 1
          · by_cases hw : w = 0 <;> simp [h3, h2, hw, side_ne]
          · simp [h3, h2, side_ne]
        · simp [h1, h3, side_ne]

example : (PPST 1 1 (XF.fin 1)).signals (barItem ([⟨3, 3, 3, 3, 0⟩, ⟨9, 9, 8, 9, 0⟩, ⟨8, 8, 8, 8, 0⟩, ⟨2, 2, 2, 2, 0⟩,
    ⟨30, 30, 30, 30, 0⟩] : List (Bar ℚ))) = .ok [Buy, Hold, Hold, Sell, Buy] := by decide +kernel

end Verif.Props
