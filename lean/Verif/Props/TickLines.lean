import Verif.Props.Tick

/-!
# Lines after an uptick (C127)
-/

set_option linter.unusedSectionVars false
set_option linter.unusedVariables false

namespace Verif.Props
open Verif Verif.Klines Verif.Ta Verif.Ind GoFloat XF

variable {K : Type} [Field K] [LinearOrder K] [IsStrictOrderedRing K]

section tools
variable {n : Nat} {x y : Nat → Candle (XF K)} {b b' : Nat → Bar K}

/-- The closes. -/
theorem TickB.cl (hC : Cols (n + 1) x b) (hC' : Cols (n + 1) y b') (hT : TickB n b b') :
    Nudged n (cl x) (cl y) ((b' n).c - (b n).c) := by
  rw [hC.cl, hC'.cl]
  exact .fin ⟨fun j hj => by rw [hT.same j hj], by ring⟩

theorem TickB.dc (hT : TickB n b b') : 0 ≤ (b' n).c - (b n).c := sub_nonneg.mpr hT.c

theorem TickB.dh (hT : TickB n b b') : 0 ≤ (b' n).h - (b n).h := sub_nonneg.mpr hT.h_le

/-- The median prices. -/
theorem TickB.med (hC : Cols (n + 1) x b) (hC' : Cols (n + 1) y b') (hT : TickB n b b') :
    Nudged n (medF x) (medF y) (((b' n).h - (b n).h) / 2) := by
  rw [med_fin hC, med_fin hC']
  exact .fin ⟨fun j hj => by rw [hT.same j hj], by rw [hT.l]; ring⟩

/-- The typical prices. -/
theorem TickB.typ (hC : Cols (n + 1) x b) (hC' : Cols (n + 1) y b') (hT : TickB n b b') :
    Nudged n (typF x) (typF y) (((b' n).h - (b n).h + ((b' n).c - (b n).c)) / 3) := by
  rw [typ_fin hC, typ_fin hC']
  exact .fin ⟨fun j hj => by rw [hT.same j hj], by rw [hT.l]; ring⟩

/-- The difference of a fast and a slow average. -/
theorem TickB.dif (hC : Cols (n + 1) x b) (hC' : Cols (n + 1) y b') (hT : TickB n b b') (p s : Nat) :
    Nudged n (difF p s x) (difF p s y)
      (emaShare K p n * ((b' n).c - (b n).c) - emaShare K s n * ((b' n).c - (b n).c)) :=
  ((hT.cl hC hC').ema p).sub ((hT.cl hC hC').ema s)

theorem diff_share {p s : Nat} (h : p ≤ s) (n : Nat) {d : K} (hd : 0 ≤ d) : 0 ≤ emaShare K p n * d - emaShare K s n * d := by
  rw [← sub_mul]; exact mul_nonneg (sub_nonneg.mpr (emaShare_anti h n)) hd

theorem self_share {p : Nat} (hp : 1 ≤ p) (n : Nat) {d : K} (hd : 0 ≤ d) : 0 ≤ d - emaShare K p n * d := by
  have := mul_le_mul_of_nonneg_right (emaShare_le_one (K := K) hp n) hd
  linarith

/-- The largest value of a window that ends with a raised value. -/
theorem Nudges.max {a a' : Nat → K} {d : K} (h : Nudges n a a' d) (hd : 0 ≤ d) {p : Nat} (hp : 0 < p) :
    ∃ e, 0 ≤ e ∧ e ≤ d ∧ Nudged n (maxF p (finF a)) (maxF p (finF a')) e := by
  choose m hm hg using maxF_fin hp a
  choose m' hm' hg' using maxF_fin hp a'
  have same : ∀ j < n, m' j = m j := fun j hj => by
    refine (hg' j).unique ?_
    have e : {v | ∃ i, j + 1 ≤ i + p ∧ i ≤ j ∧ a' i = v} = {v | ∃ i, j + 1 ≤ i + p ∧ i ≤ j ∧ a i = v} := by
      ext v
      constructor <;> rintro ⟨i, h1, h2, rfl⟩
      · exact ⟨i, h1, h2, (h.same i (by omega)).symm⟩
      · exact ⟨i, h1, h2, h.same i (by omega)⟩
    rw [e]; exact hg j
  refine ⟨m' n - m n, ?_, ?_, m, m', fun j _ => hm j, fun j _ => hm' j, same, by ring⟩
  · obtain ⟨i, h1, h2, h3⟩ := (hg n).1
    have : a' i ≤ m' n := (hg' n).2 ⟨i, h1, h2, rfl⟩
    have ha : a i ≤ a' i := by
      rcases Nat.lt_or_ge i n with h4 | h4
      · rw [h.same i h4]
      · rw [show i = n by omega, h.move]; linarith
    linarith
  · obtain ⟨i, h1, h2, h3⟩ := (hg' n).1
    have : a i ≤ m n := (hg n).2 ⟨i, h1, h2, rfl⟩
    have ha : a' i ≤ a i + d := by
      rcases Nat.lt_or_ge i n with h4 | h4
      · rw [h.same i h4]; linarith
      · rw [show i = n by omega, h.move]
    linarith

/-- The smallest value of a window that ends with a raised value. -/
theorem Nudges.min {a a' : Nat → K} {d : K} (h : Nudges n a a' d) (hd : 0 ≤ d) {p : Nat} (hp : 0 < p) :
    ∃ e, 0 ≤ e ∧ e ≤ d ∧ Nudged n (minF p (finF a)) (minF p (finF a')) e := by
  choose m hm hg using minF_fin hp a
  choose m' hm' hg' using minF_fin hp a'
  have same : ∀ j < n, m' j = m j := fun j hj => by
    refine (hg' j).unique ?_
    have e : {v | ∃ i, j + 1 ≤ i + p ∧ i ≤ j ∧ a' i = v} = {v | ∃ i, j + 1 ≤ i + p ∧ i ≤ j ∧ a i = v} := by
      ext v
      constructor <;> rintro ⟨i, h1, h2, rfl⟩
      · exact ⟨i, h1, h2, (h.same i (by omega)).symm⟩
      · exact ⟨i, h1, h2, h.same i (by omega)⟩
    rw [e]; exact hg j
  refine ⟨m' n - m n, ?_, ?_, m, m', fun j _ => hm j, fun j _ => hm' j, same, by ring⟩
  · obtain ⟨i, h1, h2, h3⟩ := (hg' n).1
    have : m n ≤ a i := (hg n).2 ⟨i, h1, h2, rfl⟩
    have ha : a i ≤ a' i := by
      rcases Nat.lt_or_ge i n with h4 | h4
      · rw [h.same i h4]
      · rw [show i = n by omega, h.move]; linarith
    linarith
  · obtain ⟨i, h1, h2, h3⟩ := (hg n).1
    have : m' n ≤ a' i := (hg' n).2 ⟨i, h1, h2, rfl⟩
    have ha : a' i ≤ a i + d := by
      rcases Nat.lt_or_ge i n with h4 | h4
      · rw [h.same i h4]; linarith
      · rw [show i = n by omega, h.move]
    linarith

theorem TickB.maxHi (hC : Cols (n + 1) x b) (hC' : Cols (n + 1) y b') (hT : TickB n b b') {p : Nat} (hp : 0 < p) :
    ∃ e, 0 ≤ e ∧ e ≤ (b' n).h - (b n).h ∧ Nudged n (maxF p (hi x)) (maxF p (hi y)) e := by
  rw [hC.hi, hC'.hi]
  exact Nudges.max ⟨fun j hj => by rw [hT.same j hj], by ring⟩ hT.dh hp

theorem TickB.minLo (hC : Cols (n + 1) x b) (hC' : Cols (n + 1) y b') (hT : TickB n b b') {p : Nat} (hp : 0 < p) :
    Nudged n (minF p (lo x)) (minF p (lo y)) 0 := by
  rw [hC.lo, hC'.lo]
  obtain ⟨e, h1, h2, h3⟩ := Nudges.min (a := fun i => (b i).l) (a' := fun i => (b' i).l) (d := 0) (n := n)
    ⟨fun j hj => by rw [hT.same j hj], by rw [hT.l]; ring⟩ le_rfl hp
  exact h3.of_eq (le_antisymm h2 h1)

theorem half_fin : (fl 1 /. fl 2 : XF K) = .fin (1 / 2) := by
  rw [fl_fin, fl_fin, div_fin (by norm_num)]; push_cast; rfl

/-- Midway between the highest high and the lowest low. -/
theorem TickB.mid (hC : Cols (n + 1) x b) (hC' : Cols (n + 1) y b') (hT : TickB n b b') {p q : Nat} (hp : 0 < p) (hq : 0 < q) :
    ∃ e, 0 ≤ e ∧ e ≤ ((b' n).h - (b n).h) / 2 ∧ Nudged n (midHL p q x) (midHL p q y) e := by
  obtain ⟨e, h1, h2, h3⟩ := hT.maxHi hC hC' hp
  refine ⟨_, ?_, ?_, (h3.add (hT.minLo hC hC' hq)).scale half_fin⟩ <;> linarith

end tools

/-! ## Averages, differences and middle lines -/

/-- **C127**, averages of closes. -/
theorem C127_averages {p : Nat} (hp : 1 ≤ p) :
    Rises (K := K) (fun _ => True) (SMA p) Rec.value ∧ Rises (K := K) (fun _ => True) (EMA p) Rec.value ∧
    Rises (K := K) (fun _ => True) (DEMA p) Rec.value := by
  refine ⟨rises_of (SMA.makes _).yields fun n x y b b' hC hC' hT _ => ?_,
    rises_of (EMA.makes _).yields fun n x y b b' hC hC' hT _ => ?_,
    rises_of (DEMA.makes _).yields fun n x y b b' hC hC' hT _ => ?_⟩
  · exact ⟨_, div_nonneg hT.dc (Nat.cast_nonneg _), (hT.cl hC hC').sma (p := p) hp⟩
  · exact ⟨_, mul_nonneg (emaShare_nonneg p n) hT.dc, (hT.cl hC hC').ema p⟩
  · have h1 := (hT.cl hC hC').ema p
    have h2 : (fl 2 : XF K) = .fin 2 := by simp
    refine ⟨_, ?_, (h1.scale h2).sub (h1.ema p)⟩
    have a1 := self_share hp n (mul_nonneg (emaShare_nonneg (K := K) p n) hT.dc)
    have a2 := mul_nonneg (emaShare_nonneg (K := K) p n) hT.dc
    linarith

/-- **C127**, differences of a fast and a slow average: `Apo`, all three lines of `Macd`, `AwesomeOscillator`. -/
theorem C127_differences {p s q : Nat} (hps : p ≤ s) (hq : 1 ≤ q) :
    Rises (K := K) (fun _ => True) (APO p s).toIndicator Rec.value ∧
    Rises (K := K) (fun _ => True) (MACD p q s).toIndicator MACD.Data.dif ∧
    Rises (K := K) (fun _ => True) (MACD p q s).toIndicator MACD.Data.dea ∧
    Rises (K := K) (fun _ => True) (MACD p q s).toIndicator MACD.Data.macd ∧
    Rises (K := K) (fun _ => True) Awesome.toIndicator Rec.value := by
  have h2 : (fl 2 : XF K) = .fin 2 := by simp
  refine ⟨rises_of (APO.makes _ _).yields fun n x y b b' hC hC' hT _ => ⟨_, diff_share hps n hT.dc, hT.dif hC hC' p s⟩,
    rises_of (MACD.makes _ _ _).yields fun n x y b b' hC hC' hT _ => ⟨_, diff_share hps n hT.dc, hT.dif hC hC' p s⟩,
    rises_of (MACD.makes _ _ _).yields fun n x y b b' hC hC' hT _ =>
      ⟨_, mul_nonneg (emaShare_nonneg q n) (diff_share hps n hT.dc), (hT.dif hC hC' p s).ema q⟩,
    rises_of (MACD.makes _ _ _).yields fun n x y b b' hC hC' hT _ =>
      ⟨_, mul_nonneg (self_share hq n (diff_share hps n hT.dc)) (by norm_num),
        ((hT.dif hC hC' p s).minus ((hT.dif hC hC' p s).ema q)).scale h2⟩,
    rises_of Awesome.appends.yields fun n x y b b' hC hC' hT _ =>
      ⟨_, diff_share (p := 5) (s := 34) (by norm_num) n (div_nonneg hT.dh (by norm_num)),
        ((hT.med hC hC').ema 5).sub ((hT.med hC hC').ema 34)⟩⟩

/-- **C127**, the Donchian lines, the middle of `KeltnerChannel` and the Ichimoku lines. -/
theorem C127_channels {p q : Nat} (hp : 1 ≤ p) (hq : 1 ≤ q) (l : Nat) :
    Rises (K := K) (fun _ => True) (Donchian p).toIndicator Band.upper ∧
    Rises (K := K) (fun _ => True) (Donchian p).toIndicator Band.middle ∧
    Rises (K := K) (fun _ => True) (Donchian p).toIndicator Band.lower ∧
    Rises (K := K) (fun _ => True) (Keltner p).toIndicator Band.middle ∧
    Rises (K := K) (fun _ => True) (Ichimoku p q l).toIndicator Ichimoku.Data.conversion ∧
    Rises (K := K) (fun _ => True) (Ichimoku p q l).toIndicator Ichimoku.Data.base ∧
    Rises (K := K) (fun _ => True) (Ichimoku p q l).toIndicator Ichimoku.Data.spanA ∧
    Rises (K := K) (fun _ => True) (Ichimoku p q l).toIndicator Ichimoku.Data.spanB := by
  have up : ∀ n (b b' : Nat → Bar K) (x y : Nat → Candle (XF K)), Cols (n + 1) x b → Cols (n + 1) y b' → TickB n b b' →
      (∃ e, 0 ≤ e ∧ Nudged n (maxF p (cl x)) (maxF p (cl y)) e) ∧ ∃ e, 0 ≤ e ∧ Nudged n (minF p (cl x)) (minF p (cl y)) e := by
    intro n b b' x y hC hC' hT
    rw [hC.cl, hC'.cl]
    have hm : Nudges n (fun i => (b i).c) (fun i => (b' i).c) ((b' n).c - (b n).c) :=
      ⟨fun j hj => by rw [hT.same j hj], by ring⟩
    obtain ⟨e, e0, -, he⟩ := hm.max hT.dc hp
    obtain ⟨e', e0', -, he'⟩ := hm.min hT.dc hp
    exact ⟨⟨e, e0, he⟩, e', e0', he'⟩
  refine ⟨rises_of (Donchian.appends _).yields fun n x y b b' hC hC' hT _ => (up n b b' x y hC hC' hT).1,
    rises_of (Donchian.appends _).yields fun n x y b b' hC hC' hT _ => ?_,
    rises_of (Donchian.appends _).yields fun n x y b b' hC hC' hT _ => (up n b b' x y hC hC' hT).2,
    rises_of (Keltner.appends _).yields fun n x y b b' hC hC' hT _ =>
      ⟨_, mul_nonneg (emaShare_nonneg p n) hT.dc, (hT.cl hC hC').ema p⟩,
    rises_of (Ichimoku.appends _ _ _).yields fun n x y b b' hC hC' hT _ => ?_,
    rises_of (Ichimoku.appends _ _ _).yields fun n x y b b' hC hC' hT _ => ?_,
    rises_of (Ichimoku.appends _ _ _).yields fun n x y b b' hC hC' hT _ => ?_,
    rises_of (Ichimoku.appends _ _ _).yields fun n x y b b' hC hC' hT _ => ?_⟩
  · obtain ⟨⟨e, e0, he⟩, e', e0', he'⟩ := up n b b' x y hC hC' hT
    exact ⟨_, mul_nonneg (add_nonneg e0 e0') (by norm_num), (he.add he').scale half_fin⟩
  · obtain ⟨e, e0, -, he⟩ := hT.mid hC hC' (p := 9) (q := p) (by norm_num) hp
    exact ⟨e, e0, he⟩
  · obtain ⟨e, e0, -, he⟩ := hT.mid hC hC' (p := 26) (q := 26) (by norm_num) (by norm_num)
    exact ⟨e, e0, he⟩
  · obtain ⟨e, e0, -, he⟩ := hT.mid hC hC' (p := 9) (q := p) (by norm_num) hp
    obtain ⟨e', e0', -, he'⟩ := hT.mid hC hC' (p := 26) (q := 26) (by norm_num) (by norm_num)
    exact ⟨_, mul_nonneg (add_nonneg e0 e0') (by norm_num), (he.add he').scale half_fin⟩
  · obtain ⟨e, e0, -, he⟩ := hT.mid hC hC' (p := q) (q := q) hq hq
    exact ⟨e, e0, he⟩

/-! ## Percentages of a range -/

section percent
variable {n : Nat} {x y : Nat → Candle (XF K)} {b b' : Nat → Bar K}

/-- The window extremes before and after: the high only changes by becoming the new close. -/
theorem TickB.highest (hT : TickB n b b') {p : Nat} (hp : 0 < p) {H H' : K}
    (h : IsGreatest {v | ∃ j, n + 1 ≤ j + p ∧ j ≤ n ∧ (b j).h = v} H)
    (h' : IsGreatest {v | ∃ j, n + 1 ≤ j + p ∧ j ≤ n ∧ (b' j).h = v} H') : H' = H ∨ (H ≤ H' ∧ H' = (b' n).c) := by
  have hle : H ≤ H' := by
    obtain ⟨j, h1, h2, h3⟩ := h.1
    have := h'.2 ⟨j, h1, h2, rfl⟩
    rcases Nat.lt_or_ge j n with h4 | h4
    · rw [hT.same j h4, h3] at this; exact this
    · have e : j = n := by omega
      subst e
      exact (h3 ▸ hT.h_le).trans this
  obtain ⟨j, h1, h2, h3⟩ := h'.1
  rcases Nat.lt_or_ge j n with h4 | h4
  · left
    rw [hT.same j h4] at h3
    exact le_antisymm (h3 ▸ h.2 ⟨j, h1, h2, rfl⟩) hle
  · have e : j = n := by omega
    subst e
    rw [hT.h] at h3
    rcases max_choice (b j).h (b' j).c with e | e
    · left
      rw [e] at h3
      exact le_antisymm (h3 ▸ h.2 ⟨j, h1, le_rfl, rfl⟩) hle
    · right
      rw [e] at h3
      exact ⟨hle, h3.symm⟩

theorem window_same (hT : TickB n b b') (u : Bar K → K) {p i : Nat} (hi : i < n) :
    {v | ∃ j, i + 1 ≤ j + p ∧ j ≤ i ∧ u (b' j) = v} = {v | ∃ j, i + 1 ≤ j + p ∧ j ≤ i ∧ u (b j) = v} := by
  ext v
  constructor <;> rintro ⟨j, h1, h2, rfl⟩
  · exact ⟨j, h1, h2, by rw [hT.same j (by omega)]⟩
  · exact ⟨j, h1, h2, by rw [hT.same j (by omega)]⟩

theorem window_low (hT : TickB n b b') {p i : Nat} (hi : i ≤ n) :
    {v | ∃ j, i + 1 ≤ j + p ∧ j ≤ i ∧ (b' j).l = v} = {v | ∃ j, i + 1 ≤ j + p ∧ j ≤ i ∧ (b j).l = v} := by
  have e : ∀ j ≤ n, (b' j).l = (b j).l := fun j hj => by
    rcases Nat.lt_or_ge j n with h | h
    · rw [hT.same j h]
    · rw [show j = n by omega, hT.l]
  ext v
  constructor <;> rintro ⟨j, h1, h2, rfl⟩
  · exact ⟨j, h1, h2, (e j (by omega)).symm⟩
  · exact ⟨j, h1, h2, e j (by omega)⟩

/-- The extremes of all windows before and after. -/
theorem TickB.extremes (hC : Cols (n + 1) x b) (hC' : Cols (n + 1) y b') (hT : TickB n b b') {p : Nat} (hp : 0 < p) :
    ∃ H H' L : Nat → K, (∀ i ≤ n, maxF p (hi x) i = .fin (H i)) ∧ (∀ i ≤ n, maxF p (hi y) i = .fin (H' i)) ∧
      (∀ i ≤ n, minF p (lo x) i = .fin (L i)) ∧ (∀ i ≤ n, minF p (lo y) i = .fin (L i)) ∧ (∀ i < n, H' i = H i) ∧
      (∀ i ≤ n, (b i).h ≤ H i ∧ L i ≤ (b i).l) ∧ (H' n = H n ∨ (H n ≤ H' n ∧ H' n = (b' n).c)) := by
  choose H eH hH using maxF_fin hp fun j => (b j).h
  choose H' eH' hH' using maxF_fin hp fun j => (b' j).h
  choose L eL hL using minF_fin hp fun j => (b j).l
  choose L' eL' hL' using minF_fin hp fun j => (b' j).l
  refine ⟨H, H', L, fun i _ => by rw [hC.hi, eH], fun i _ => by rw [hC'.hi, eH'], fun i _ => by rw [hC.lo, eL],
    fun i hi => ?_, fun i hi => ?_, fun i _ => ⟨(hH i).2 ⟨i, by omega, le_rfl, rfl⟩, (hL i).2 ⟨i, by omega, le_rfl, rfl⟩⟩,
    hT.highest hp (hH n) (hH' n)⟩
  · rw [hC'.lo, eL']
    have := hL' i
    rw [window_low hT hi] at this
    rw [this.unique (hL i)]
  · have := hH' i
    rw [window_same hT (fun k => k.h) hi] at this
    exact this.unique (hH i)

/-- The place of the close in the range. -/
theorem place_le {c c' H H' L : K} (hc : c ≤ c') (h1 : L ≤ c) (h2 : c ≤ H) (h : H' = H ∨ (H ≤ H' ∧ H' = c')) :
    (c - L) / (H - L) ≤ (c' - L) / (H' - L) := by
  rcases eq_or_lt_of_le (h1.trans h2) with e | e
  · have : c = L := le_antisymm (h2.trans e.ge) h1
    rw [this, sub_self, zero_div]
    rcases h with h | ⟨h, h'⟩
    · exact div_nonneg (by linarith) (by rw [h]; linarith)
    · exact div_nonneg (by linarith) (by linarith)
  · rcases h with h | ⟨h, h'⟩
    · rw [h]; exact div_le_div_of_nonneg_right (by linarith) (by linarith)
    · rw [h', div_self (by intro h0; linarith), div_le_one (by linarith)]; linarith

theorem TickB.stoch (hC : Cols (n + 1) x b) (hC' : Cols (n + 1) y b') (hT : TickB n b b') (hw : CloseInside (b n)) {p : Nat}
    (hp : 0 < p) : ∃ e, 0 ≤ e ∧ Nudged n (stochK p x) (stochK p y) e := by
  obtain ⟨H, H', L, e1, e2, e3, e4, hs, hb, hH⟩ := hT.extremes hC hC' hp
  have f100 : (fl 100 : XF K) = .fin 100 := by simp
  refine ⟨((b' n).c - L n) / (H' n - L n) * 100 - ((b n).c - L n) / (H n - L n) * 100, ?_,
    fun i => ((b i).c - L i) / (H i - L i) * 100, fun i => ((b' i).c - L i) / (H' i - L i) * 100, fun i hi => ?_,
    fun i hi => ?_, fun i hi => by rw [hT.same i hi, hs i hi], by ring⟩
  · have := place_le hT.c ((hb n le_rfl).2.trans hw.1) (hw.2.trans (hb n le_rfl).1) hH
    linarith
  · rw [stochK, stochF, Int.toNat_natCast, e1 i hi, e3 i hi, hC.cl, f100]
    simp only [finF, subF_fin, safeDiv_fin_eq, mul_fin]
  · rw [stochK, stochF, Int.toNat_natCast, e2 i hi, e4 i hi, hC'.cl, f100]
    simp only [finF, subF_fin, safeDiv_fin_eq, mul_fin]

theorem TickB.williams (hC : Cols (n + 1) x b) (hC' : Cols (n + 1) y b') (hT : TickB n b b') (hw : CloseInside (b n))
    (hr : ∀ j < n + 1, HasRange (b j)) {p : Nat} (hp : 0 < p) : ∃ e, 0 ≤ e ∧ Nudged n (williamsF p x) (williamsF p y) e := by
  obtain ⟨H, H', L, e1, e2, e3, e4, hs, hb, hH⟩ := hT.extremes hC hC' hp
  have f100 : (fl (-100) : XF K) = .fin (-100) := by simp
  have r1 : ∀ i ≤ n, H i - L i ≠ 0 := fun i hi => by
    have := hb i hi
    have : (b i).l < (b i).h := hr i (by omega)
    intro h0; linarith
  have r2 : H n - L n ≠ 0 → H' n - L n ≠ 0 := fun h0 => by
    have h3 := (hb n le_rfl)
    have h4 : (b n).l < (b n).h := hr n (by omega)
    rcases hH with h | ⟨h, -⟩
    · rw [h]; exact h0
    · intro h5; linarith
  refine ⟨(H' n - (b' n).c) / (H' n - L n) * -100 - (H n - (b n).c) / (H n - L n) * -100, ?_,
    fun i => (H i - (b i).c) / (H i - L i) * -100, fun i => (H' i - (b' i).c) / (H' i - L i) * -100, fun i hi => ?_,
    fun i hi => ?_, fun i hi => by rw [hT.same i hi, hs i hi], by ring⟩
  · have := place_le hT.c ((hb n le_rfl).2.trans hw.1) (hw.2.trans (hb n le_rfl).1) hH
    have k1 : (H n - (b n).c) / (H n - L n) = 1 - ((b n).c - L n) / (H n - L n) := by
      have := r1 n le_rfl
      field_simp; ring
    have k2 : (H' n - (b' n).c) / (H' n - L n) = 1 - ((b' n).c - L n) / (H' n - L n) := by
      have := r2 (r1 n le_rfl)
      field_simp; ring
    rw [k1, k2]; linarith
  · rw [williamsF, Int.toNat_natCast, e1 i hi, e3 i hi, hC.cl, f100]
    simp only [finF, sub_fin, div_fin (r1 i hi), mul_fin]
  · have : H' i - L i ≠ 0 := by
      rcases Nat.lt_or_ge i n with h | h
      · rw [hs i h]; exact r1 i hi
      · rw [show i = n by omega]; exact r2 (r1 n le_rfl)
    rw [williamsF, Int.toNat_natCast, e2 i hi, e4 i hi, hC'.cl, f100]
    simp only [finF, sub_fin, div_fin this, mul_fin]

/-- `RSV` of the last candle. A range that is negligible counts as a close at the top. -/
theorem TickB.rsv (hC : Cols (n + 1) x b) (hC' : Cols (n + 1) y b') (hT : TickB n b b') (hw : CloseInside (b n)) {p : Nat}
    (hp : 1 ≤ p) : ∃ e, 0 ≤ e ∧ Nudged n (rsvF p x) (rsvF p y) e := by
  have key : ∀ i ≤ n, ∃ a a', rsvF p x i = .fin a ∧ rsvF p y i = .fin a' ∧ (i < n → a' = a) ∧ a ≤ a' := by
    intro i hi
    by_cases hf : p ≤ i + 1
    · obtain ⟨H, L, hH, hL, e⟩ := rsvF_fin hp hC hf
      obtain ⟨H', L', hH', hL', e'⟩ := rsvF_fin hp hC' hf
      have eL : L' = L := by rw [window_low hT hi] at hL'; exact hL'.unique hL
      subst eL
      refine ⟨_, _, e, e', fun h => ?_, ?_⟩
      · rw [window_same hT (fun k => k.h) h] at hH'
        rw [hH'.unique hH, hT.same i h]
      · rcases Nat.lt_or_ge i n with h | h
        · rw [window_same hT (fun k => k.h) h] at hH'
          rw [hH'.unique hH, hT.same i h]
        · have : i = n := by omega
          subst this
          have h1 : (b i).h ≤ H := hH.2 ⟨i, by omega, le_rfl, rfl⟩
          have h2 : L' ≤ (b i).l := hL.2 ⟨i, by omega, le_rfl, rfl⟩
          have h3 := hT.highest hp hH hH'
          have h4 := place_le hT.c (h2.trans hw.1) (hw.2.trans h1) h3
          have hw1 := hw.1
          have hw2 := hw.2
          have top : H - L' < 1 / 1000000 → ¬ H' - L' < 1 / 1000000 → ((b' i).c - L') / (H' - L') = 1 := fun k1 k2 => by
            rcases h3 with h | ⟨-, h⟩
            · exact absurd (h ▸ k1) k2
            · rw [← h]
              exact div_self fun h0 => k2 (by rw [h0]; norm_num)
          have le1 : ((b i).c - L') / (H - L') ≤ 1 := by
            rcases eq_or_lt_of_le (show L' ≤ H by linarith) with h | h
            · rw [h, sub_self, div_zero]; norm_num
            · rw [div_le_one (by linarith)]; linarith
          split
          · next k1 =>
            split
            · exact le_rfl
            · next k2 => rw [top k1 k2]; norm_num
          · split
            · linarith
            · linarith
    · have h0 : ∀ z : Nat → Candle (XF K), rsvF p z i = .fin 0 := fun z => by
        have : kdjFull p i = false := by unfold kdjFull; simp; omega
        rw [rsvF, this]; simp
      exact ⟨0, 0, h0 x, h0 y, fun _ => rfl, le_rfl⟩
  choose! a a' h1 h2 h3 h4 using key
  exact ⟨a' n - a n, sub_nonneg.mpr (h4 n le_rfl), a, a', h1, h2, fun j hj => h3 j hj.le hj, by ring⟩

/-- `K` and `D` of the last candle: a third of the new value, and a third of that. -/
theorem TickB.kdj (hC : Cols (n + 1) x b) (hC' : Cols (n + 1) y b') (hT : TickB n b b') (hw : CloseInside (b n)) {p : Nat}
    (hp : 1 ≤ p) : ∃ e, 0 ≤ e ∧ Nudged n (kF p x) (kF p y) (e / 3) ∧ Nudged n (dF p x) (dF p y) (e / 9) := by
  obtain ⟨e, e0, r, r', hr, hr', hm⟩ := hT.rsv hC hC' hw hp
  have e50 : (fl 50 : XF K) = .fin 50 := by simp
  have e23 : (twoThirds : XF K) = .fin (2 / 3) := by rw [twoThirds, lit_fin]; push_cast; rfl
  have e13 : (oneThird : XF K) = .fin (1 / 3) := by rw [oneThird, lit_fin]; push_cast; rfl
  by_cases h0 : n = 0 ∨ kdjFull p n = false
  · refine ⟨0, le_rfl, ?_⟩
    have key : ∀ i ≤ n, kF p x i = .fin 50 ∧ kF p y i = .fin 50 ∧ dF p x i = .fin 50 ∧ dF p y i = .fin 50 := by
      intro i hi
      cases i with
      | zero => exact ⟨e50, e50, e50, e50⟩
      | succ i =>
        have hf : kdjFull p (i + 1) = false := by
          rcases h0 with h | h
          · omega
          · unfold kdjFull at h ⊢; simp only [Bool.and_eq_false_iff, decide_eq_false_iff_not] at h ⊢; omega
        simp only [kF, dF, hf, e50]
        simp
    exact ⟨⟨fun _ => 50, fun _ => 50, fun i hi => (key i hi).1, fun i hi => (key i hi).2.1, fun _ _ => rfl, by ring⟩,
      fun _ => 50, fun _ => 50, fun i hi => (key i hi).2.2.1, fun i hi => (key i hi).2.2.2, fun _ _ => rfl, by ring⟩
  · obtain ⟨hn0, hfull⟩ := not_or.mp h0
    have hfull : kdjFull p n = true := by simpa using hfull
    have key : ∀ i ≤ n, ∃ k k' d d', kF p x i = .fin k ∧ kF p y i = .fin k' ∧ dF p x i = .fin d ∧ dF p y i = .fin d' ∧
        (i < n → k' = k ∧ d' = d) ∧ (i = n → k' = k + e / 3 ∧ d' = d + e / 9) := by
      intro i hi
      induction i with
      | zero => exact ⟨50, 50, 50, 50, e50, e50, e50, e50, fun _ => ⟨rfl, rfl⟩, fun h => absurd h.symm hn0⟩
      | succ i ih =>
        obtain ⟨k, k', d, d', h1, h2, h3, h4, h5, -⟩ := ih (by omega)
        obtain ⟨rfl, rfl⟩ := h5 (by omega)
        by_cases hf : kdjFull p (i + 1) = true
        · have ek : kF p x (i + 1) = .fin (2 / 3 * k' + 1 / 3 * r (i + 1)) := by
            rw [kF, if_pos hf, h1, hr _ hi, e23, e13, mul_fin, mul_fin, add_fin]
          have ek' : kF p y (i + 1) = .fin (2 / 3 * k' + 1 / 3 * r' (i + 1)) := by
            rw [kF, if_pos hf, h2, hr' _ hi, e23, e13, mul_fin, mul_fin, add_fin]
          refine ⟨_, _, 2 / 3 * d' + 1 / 3 * (2 / 3 * k' + 1 / 3 * r (i + 1)),
            2 / 3 * d' + 1 / 3 * (2 / 3 * k' + 1 / 3 * r' (i + 1)), ek, ek', ?_, ?_, fun h => ?_, fun h => ?_⟩
          · rw [dF, if_pos hf, h3, ek, e23, e13, mul_fin, mul_fin, add_fin]
          · rw [dF, if_pos hf, h4, ek', e23, e13, mul_fin, mul_fin, add_fin]
          · rw [hm.same _ h]; exact ⟨rfl, rfl⟩
          · rw [h, hm.move]; constructor <;> ring
        · refine ⟨50, 50, 50, 50, ?_, ?_, ?_, ?_, fun _ => ⟨rfl, rfl⟩, fun h => absurd (h ▸ hfull) hf⟩
          · rw [kF, if_neg hf, e50]
          · rw [kF, if_neg hf, e50]
          · rw [dF, if_neg hf, e50]
          · rw [dF, if_neg hf, e50]
    choose! k k' d d' h1 h2 h3 h4 h5 h6 using key
    exact ⟨e, e0, ⟨k, k', h1, h2, fun j hj => (h5 j hj.le hj).1, (h6 n le_rfl rfl).1⟩,
      d, d', h3, h4, fun j hj => (h5 j hj.le hj).2, (h6 n le_rfl rfl).2⟩

end percent

/-- **C127**, percentages: the stochastic lines, Williams %R and the lines of `Kdj`. -/
theorem C127_percentages {p : Nat} (hp : 1 ≤ p) :
    Rises (K := K) CloseInside (Stoch p).toIndicator KD.k ∧ Rises (K := K) CloseInside (Stoch p).toIndicator KD.d ∧
    Rises (K := K) (fun b => CloseInside b ∧ HasRange b) (Williams p).toIndicator Rec.value ∧
    Rises (K := K) CloseInside (KDJ p).toIndicator KDJ.Data.rsv ∧ Rises (K := K) CloseInside (KDJ p).toIndicator KDJ.Data.k ∧
    Rises (K := K) CloseInside (KDJ p).toIndicator KDJ.Data.d ∧ Rises (K := K) CloseInside (KDJ p).toIndicator KDJ.Data.j := by
  refine ⟨rises_of (Stoch.appends _).yields fun n x y b b' hC hC' hT hw => hT.stoch hC hC' (hw n (by omega)) hp,
    rises_of (Stoch.appends _).yields fun n x y b b' hC hC' hT hw => ?_,
    rises_of (Williams.appends _).yields fun n x y b b' hC hC' hT hw =>
      hT.williams hC hC' (hw n (by omega)).1 (fun j hj => (hw j hj).2) hp,
    rises_of (KDJ.makes _).yields fun n x y b b' hC hC' hT hw => hT.rsv hC hC' (hw n (by omega)) hp,
    rises_of (KDJ.makes _).yields fun n x y b b' hC hC' hT hw => ?_,
    rises_of (KDJ.makes _).yields fun n x y b b' hC hC' hT hw => ?_,
    rises_of (KDJ.makes _).yields fun n x y b b' hC hC' hT hw => ?_⟩
  · obtain ⟨e, e0, he⟩ := hT.stoch hC hC' (hw n (by omega)) hp
    exact ⟨_, div_nonneg e0 (Nat.cast_nonneg _), he.sma (p := 3) (by norm_num)⟩
  · obtain ⟨e, e0, h1, h2⟩ := hT.kdj hC hC' (hw n (by omega)) hp
    exact ⟨_, div_nonneg e0 (by norm_num), h1⟩
  · obtain ⟨e, e0, h1, h2⟩ := hT.kdj hC hC' (hw n (by omega)) hp
    exact ⟨_, div_nonneg e0 (by norm_num), h2⟩
  · obtain ⟨e, e0, h1, h2⟩ := hT.kdj hC hC' (hw n (by omega)) hp
    obtain ⟨k, k', k1, k2, km⟩ := h1
    obtain ⟨d, d', d1, d2, dm⟩ := h2
    have f3 : (fl 3 : XF K) = .fin 3 := by simp
    have f2 : (fl 2 : XF K) = .fin 2 := by simp
    refine ⟨7 / 9 * e, by linarith, fun i => 3 * k i - 2 * d i, fun i => 3 * k' i - 2 * d' i, fun i hi => ?_, fun i hi => ?_,
      fun i hi => by rw [km.same i hi, dm.same i hi], by rw [km.move, dm.move]; ring⟩
    · show fl 3 *. kF p x i -. fl 2 *. dF p x i = _
      rw [k1 i hi, d1 i hi, f3, f2, mul_fin, mul_fin, sub_fin]
    · show fl 3 *. kF p y i -. fl 2 *. dF p y i = _
      rw [k2 i hi, d2 i hi, f3, f2, mul_fin, mul_fin, sub_fin]

end Verif.Props
