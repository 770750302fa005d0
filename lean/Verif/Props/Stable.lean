import Verif.Props.EmaLines
import Verif.Props.Lines
import Verif.Props.WindowLines

/-!
# Two data feeds that nearly agree (C130)

Exchanges report slightly different prices for the same candle. How far apart the indicators on two such feeds can be.
-/

set_option linter.unusedSectionVars false

namespace Verif.Props
open Verif Verif.Klines Verif.Ta Verif.Ind GoFloat XF

variable {K : Type} [Field K] [LinearOrder K] [IsStrictOrderedRing K]

/-- The two feeds have equally many candles, the same volumes, and no price differs by more than `e`. -/
def NearBars (e : K) (bs bs' : List (Bar K)) : Prop :=
  bs.length = bs'.length ∧ ∀ (i : Nat) b b', bs[i]? = some b → bs'[i]? = some b' →
    |b.o - b'.o| ≤ e ∧ |b.h - b'.h| ≤ e ∧ |b.l - b'.l| ≤ e ∧ |b.c - b'.c| ≤ e ∧ b.v = b'.v

/-- If no price differs by more than `e` the line `f` of the indicator, which is a number at every candle, differs by at most
`m * e`. -/
def StableLine (m : K) (I : Indicator (XF K)) (f : I.D → XF K) : Prop :=
  ∀ (e : K) (bs bs' : List (Bar K)) (it it' : Item (XF K)) (d d' : List I.D), NearBars e bs bs' → Holds it bs → Holds it' bs' →
    I.data it = .ok d → I.data it' = .ok d' → ∀ (i : Nat) r r', d[i]? = some r → d'[i]? = some r' →
      ∃ u v, f r = .fin u ∧ f r' = .fin v ∧ |u - v| ≤ m * e

/-- The sequences differ by at most `e` up to place `i`. -/
def NearTo (e : K) (i : Nat) (a b : Nat → K) : Prop := ∀ j ≤ i, |a j - b j| ≤ e

theorem NearTo.mono {e : K} {i j : Nat} {a b : Nat → K} (h : NearTo e i a b) (hj : j ≤ i) : NearTo e j a b :=
  fun k hk => h k (by omega)

theorem NearTo.nonneg {e : K} {i : Nat} {a b : Nat → K} (h : NearTo e i a b) : 0 ≤ e := (abs_nonneg _).trans (h 0 (by omega))

theorem NearBars.col {e : K} {bs bs' : List (Bar K)} (h : NearBars e bs bs') {i : Nat} (hi : i < bs.length) :
    NearTo e i (col Bar.o bs) (col Bar.o bs') ∧ NearTo e i (col Bar.h bs) (col Bar.h bs') ∧
    NearTo e i (col Bar.l bs) (col Bar.l bs') ∧ NearTo e i (col Bar.c bs) (col Bar.c bs') ∧
    ∀ j ≤ i, col Bar.v bs j = col Bar.v bs' j := by
  have key : ∀ j ≤ i, ∃ b b', bs[j]? = some b ∧ bs'[j]? = some b' := fun j hj =>
    ⟨_, _, List.getElem?_eq_getElem (by omega), List.getElem?_eq_getElem (by have := h.1; omega)⟩
  refine ⟨fun j hj => ?_, fun j hj => ?_, fun j hj => ?_, fun j hj => ?_, fun j hj => ?_⟩
  all_goals
    obtain ⟨b, b', h1, h2⟩ := key j hj
    have := h.2 j b b' h1 h2
    rw [Props.col, Props.col, h1, h2]
    simp only [Option.map_some, Option.getD_some]
    tauto

theorem near_exp {p : Nat} (hp : 1 ≤ p) {e : K} {i : Nat} {a b : Nat → K} (h : NearTo e i a b) :
    NearTo e i (expMean p a) (expMean p b) := by
  have hp' : (1 : K) ≤ p := by exact_mod_cast hp
  have h1 : 0 ≤ 2 / ((p : K) + 1) := by positivity
  have h2 : 0 ≤ 1 - 2 / ((p : K) + 1) := by
    rw [sub_nonneg, div_le_one (by positivity)]; linarith
  intro j hj
  induction j with
  | zero => simpa [expMean] using h 0 (by omega)
  | succ j ih =>
    rw [expMean_succ, expMean_succ]
    generalize 2 / ((p : K) + 1) = s at h1 h2
    rw [show s * a (j + 1) + (1 - s) * expMean p a j - (s * b (j + 1) + (1 - s) * expMean p b j) =
      s * (a (j + 1) - b (j + 1)) + (1 - s) * (expMean p a j - expMean p b j) by ring]
    refine (abs_add_le _ _).trans ?_
    rw [abs_mul, abs_mul, abs_of_nonneg h1, abs_of_nonneg h2]
    have g1 := mul_le_mul_of_nonneg_left (h (j + 1) hj) h1
    have g2 := mul_le_mul_of_nonneg_left (ih (by omega)) h2
    linarith

theorem near_sub {e e' : K} {i : Nat} {a b a' b' : Nat → K} (h : NearTo e i a b) (h' : NearTo e' i a' b') :
    NearTo (e + e') i (fun j => a j - a' j) (fun j => b j - b' j) := by
  intro j hj
  have g1 := abs_le.mp (h j hj)
  have g2 := abs_le.mp (h' j hj)
  exact abs_le.mpr ⟨by linarith [g1.1, g2.2], by linarith [g1.2, g2.1]⟩

theorem near_winMean {p : Nat} (hp : 0 < p) {e : K} {i : Nat} {a b : Nat → K} (h : NearTo e i a b) :
    |winSum p i a / (min p (i + 1) : Nat) - winSum p i b / (min p (i + 1) : Nat)| ≤ e := by
  have hn : (0 : K) < (min p (i + 1) : Nat) := by
    have : 0 < min p (i + 1) := by omega
    exact_mod_cast this
  rw [← sub_div, abs_div, abs_of_pos hn, div_le_iff₀ hn, winSum, winSum, ← Finset.sum_sub_distrib]
  refine (Finset.abs_sum_le_sum_abs _ _).trans ?_
  refine (Finset.sum_le_card_nsmul _ _ e fun j hj => h j (by have := Finset.mem_Ico.mp hj; omega)).trans ?_
  rw [nsmul_eq_mul, Nat.card_Ico, show i + 1 - (i + 1 - p) = min p (i + 1) by omega, mul_comm]

theorem near_greatest {e : K} {bs bs' : List (Bar K)} {f : Bar K → K} {p i : Nat} (hlen : bs.length = bs'.length)
    (h : ∀ (j : Nat) b b', bs[j]? = some b → bs'[j]? = some b' → |f b - f b'| ≤ e) {u u' : K}
    (hu : IsGreatest {v | ∃ q ∈ window p i bs, f q = v} u) (hu' : IsGreatest {v | ∃ q ∈ window p i bs', f q = v} u') :
    |u - u'| ≤ e := by
  have half : ∀ {bs bs' : List (Bar K)} {u u' : K}, bs.length = bs'.length →
      (∀ (j : Nat) b b', bs[j]? = some b → bs'[j]? = some b' → |f b - f b'| ≤ e) →
      IsGreatest {v | ∃ q ∈ window p i bs, f q = v} u → IsGreatest {v | ∃ q ∈ window p i bs', f q = v} u' → u - u' ≤ e := by
    intro bs bs' u u' hlen h hu hu'
    obtain ⟨q, hq, rfl⟩ := hu.1
    obtain ⟨j, h1, h2, h3⟩ := mem_window.mp hq
    have hj : j < bs'.length := by rw [← hlen]; exact (List.getElem?_eq_some_iff.mp h3).1
    have h4 := List.getElem?_eq_getElem hj
    have := hu'.2 ⟨_, mem_window.mpr ⟨j, h1, h2, h4⟩, rfl⟩
    have := (abs_le.mp (h j _ _ h3 h4)).2
    linarith
  refine abs_le.mpr ⟨?_, half hlen h hu hu'⟩
  have := half hlen.symm (fun j b b' h1 h2 => by rw [abs_sub_comm]; exact h j b' b h2 h1) hu' hu
  linarith

theorem near_least {e : K} {bs bs' : List (Bar K)} {f : Bar K → K} {p i : Nat} (hlen : bs.length = bs'.length)
    (h : ∀ (j : Nat) b b', bs[j]? = some b → bs'[j]? = some b' → |f b - f b'| ≤ e) {u u' : K}
    (hu : IsLeast {v | ∃ q ∈ window p i bs, f q = v} u) (hu' : IsLeast {v | ∃ q ∈ window p i bs', f q = v} u') :
    |u - u'| ≤ e := by
  have half : ∀ {bs bs' : List (Bar K)} {u u' : K}, bs.length = bs'.length →
      (∀ (j : Nat) b b', bs[j]? = some b → bs'[j]? = some b' → |f b - f b'| ≤ e) →
      IsLeast {v | ∃ q ∈ window p i bs, f q = v} u → IsLeast {v | ∃ q ∈ window p i bs', f q = v} u' → u' - u ≤ e := by
    intro bs bs' u u' hlen h hu hu'
    obtain ⟨q, hq, rfl⟩ := hu.1
    obtain ⟨j, h1, h2, h3⟩ := mem_window.mp hq
    have hj : j < bs'.length := by rw [← hlen]; exact (List.getElem?_eq_some_iff.mp h3).1
    have h4 := List.getElem?_eq_getElem hj
    have := hu'.2 ⟨_, mem_window.mpr ⟨j, h1, h2, h4⟩, rfl⟩
    have := (abs_le.mp (h j _ _ h3 h4)).1
    linarith
  have := half hlen h hu hu'
  refine abs_le.mpr ⟨by linarith, ?_⟩
  exact half hlen.symm (fun j b b' h1 h2 => by rw [abs_sub_comm]; exact h j b' b h2 h1) hu' hu

theorem near_rma {p : Nat} (hp : 0 < p) {e : K} {i : Nat} {a b : Nat → K} (h : ∀ j, 1 ≤ j → j ≤ i → |a j - b j| ≤ e) (he : 0 ≤ e) :
    (i < p → |(rmaK p a i).1 - (rmaK p b i).1| ≤ i * e) ∧ |(rmaK p a i).2 - (rmaK p b i).2| ≤ e := by
  induction i with
  | zero => simpa [rmaK] using he
  | succ k ih =>
    obtain ⟨ih1, ih2⟩ := ih fun j h1 h2 => h j h1 (by omega)
    have hk := h (k + 1) (by omega) le_rfl
    rw [rmaK, rmaK]
    by_cases hkp : k + 1 < p
    · simp only [if_pos hkp]
      have g := ih1 (by omega)
      have g' : |(rmaK p a k).1 + a (k + 1) - ((rmaK p b k).1 + b (k + 1))| ≤ ((k : K) + 1) * e := by
        rw [add_sub_add_comm]
        refine (abs_add_le _ _).trans ?_
        linarith
      refine ⟨fun _ => by push_cast; exact g', ?_⟩
      have hk2 : (0 : K) < (k : K) + 2 := by positivity
      rw [← sub_div, abs_div, abs_of_pos hk2, div_le_iff₀ hk2]
      nlinarith
    · simp only [if_neg hkp]
      refine ⟨fun h' => absurd h' hkp, ?_⟩
      have hp' : (1 : K) ≤ p := by exact_mod_cast hp
      have hp0 : (0 : K) < p := by linarith
      rw [← sub_div, abs_div, abs_of_pos hp0, div_le_iff₀ hp0,
        show (rmaK p a k).2 * ((p : K) - 1) + a (k + 1) - ((rmaK p b k).2 * ((p : K) - 1) + b (k + 1)) =
          ((rmaK p a k).2 - (rmaK p b k).2) * ((p : K) - 1) + (a (k + 1) - b (k + 1)) by ring]
      refine (abs_add_le _ _).trans ?_
      rw [abs_mul, abs_of_nonneg (show 0 ≤ (p : K) - 1 by linarith)]
      have := mul_le_mul_of_nonneg_right ih2 (show 0 ≤ (p : K) - 1 by linarith)
      linarith

theorem near_max {e a b c d : K} (h1 : |a - b| ≤ e) (h2 : |c - d| ≤ e) : |max a c - max b d| ≤ e :=
  (abs_max_sub_max_le_max a c b d).trans (max_le h1 h2)

/-- The ranges `Atr` averages. -/
def rangeOf (h l c : Nat → K) (i : Nat) : K :=
  max (h i - l i) (max (h i - if i = 0 then 0 else c (i - 1)) (l i - if i = 0 then 0 else c (i - 1)))

theorem near_range {e : K} {i : Nat} {h l c h' l' c' : Nat → K} (h1 : NearTo e i h h') (h2 : NearTo e i l l') (h3 : NearTo e i c c')
    {j : Nat} (hj : j ≤ i) (hj1 : 1 ≤ j) : |rangeOf h l c j - rangeOf h' l' c' j| ≤ 2 * e := by
  have a1 := abs_le.mp (h1 j hj)
  have a2 := abs_le.mp (h2 j hj)
  have a3 := abs_le.mp (h3 (j - 1) (by omega))
  have hj0 : j ≠ 0 := by omega
  simp only [rangeOf, if_neg hj0]
  refine near_max (abs_le.mpr ⟨by linarith [a1.1, a2.2], by linarith [a1.2, a2.1]⟩) (near_max ?_ ?_)
  · exact abs_le.mpr ⟨by linarith [a1.1, a3.2], by linarith [a1.2, a3.1]⟩
  · exact abs_le.mpr ⟨by linarith [a2.1, a3.2], by linarith [a2.2, a3.1]⟩

theorem atr_range {p : Nat} (hp : 0 < p) {it : Item (XF K)} {bs : List (Bar K)} (hb : Holds it bs) {d : List (ATR.Data (XF K))}
    (hd : (ATR p).data it = .ok d) {i : Nat} {r : ATR.Data (XF K)} (hr : d[i]? = some r) :
    i < bs.length ∧ r.tr = .fin (rangeOf (col Bar.h bs) (col Bar.l bs) (col Bar.c bs) i) ∧
      r.atr = .fin (rmaK p (rangeOf (col Bar.h bs) (col Bar.l bs) (col Bar.c bs)) i).2 := by
  obtain ⟨x, b, hx, hbs, hc, hz⟩ := hb.cols₀
  obtain ⟨hi, -, rfl, -⟩ := at_index (b := b) (ATR.makes p).yields hx hd hr
  have key : ∀ f : Bar K → K, f ⟨0, 0, 0, 0, 0⟩ = 0 → col f bs = fun i => f (b i) := by
    intro f hf
    funext i
    by_cases hi : i < bs.length
    · exact Holds.col_eq hbs hi f
    · rw [hz i (by omega), hf, col, List.getElem?_eq_none (by omega)]; rfl
  have e : trI x = finF (rangeOf (col Bar.h bs) (col Bar.l bs) (col Bar.c bs)) := by
    rw [trI_fin hc, key Bar.h rfl, key Bar.l rfl, key Bar.c rfl]
    rfl
  refine ⟨hi, ?_, ?_⟩
  · show trI x i = _
    rw [e]
  · show rmaF (p : Int) (trI x) i = _
    rw [e, rmaF_fin hp]

section
variable {e : K} {bs bs' : List (Bar K)}

theorem stable_of {I : Indicator (XF K)} {f : I.D → XF K} {m : K} (g : List (Bar K) → Nat → K)
    (hf : ∀ (bs : List (Bar K)) (it : Item (XF K)) (d : List I.D), Holds it bs → I.data it = .ok d → ∀ (i : Nat) r, d[i]? = some r →
      i < bs.length ∧ f r = .fin (g bs i))
    (hg : ∀ (e : K) (bs bs' : List (Bar K)), NearBars e bs bs' → ∀ i < bs.length, |g bs i - g bs' i| ≤ m * e) : StableLine m I f := by
  intro e bs bs' it it' d d' hn hb hb' hd hd' i r r' hr hr'
  obtain ⟨h1, h2⟩ := hf bs it d hb hd i r hr
  obtain ⟨h3, h4⟩ := hf bs' it' d' hb' hd' i r' hr'
  exact ⟨_, _, h2, h4, hg e bs bs' hn i h1⟩

theorem len_full {I : Indicator (XF K)} {ok} {G} (hy : Yields I ok G) {it : Item (XF K)} {bs : List (Bar K)} (hb : Holds it bs)
    {d : List I.D} (hd : I.data it = .ok d) {i : Nat} {r : I.D} (hr : d[i]? = some r) : i < bs.length :=
  let ⟨_, hx, _⟩ := hb.full
  (at_full hy hx hd hr).1

end

/-- **C130** An error of `e` in the prices changes a simple or exponential average by at most `e`. -/
theorem C130_averages {p : Nat} (hp : 1 ≤ p) :
    StableLine (K := K) 1 (SMA p) Rec.value ∧ StableLine (K := K) 1 (MAi p) Rec.value ∧ StableLine (K := K) 1 (EMA p) Rec.value ∧
    StableLine (K := K) 1 (Keltner p).toIndicator Band.middle ∧ StableLine (K := K) 3 (DEMA p) Rec.value := by
  refine ⟨?_, ?_, ?_, ?_, ?_⟩
  · refine stable_of (fun bs i => winSum p i (col Bar.c bs) / (min p (i + 1) : Nat)) (fun bs it d hb hd i r hr =>
      ⟨len_full (SMA.makes p).yields hb hd hr, C83_sma (by omega) hb hd hr⟩) fun e bs bs' hn i hi => ?_
    rw [one_mul]
    exact near_winMean (by omega) (hn.col hi).2.2.2.1
  · refine stable_of (fun bs i => winSum p i (col Bar.c bs) / (min p (i + 1) : Nat)) (fun bs it d hb hd i r hr =>
      ⟨len_full (MAi.appends p).yields hb hd hr, C83_ma (by omega) hb hd hr⟩) fun e bs bs' hn i hi => ?_
    rw [one_mul]
    exact near_winMean (by omega) (hn.col hi).2.2.2.1
  · refine stable_of (fun bs => expMean p (col Bar.c bs)) (fun bs it d hb hd i r hr =>
      ⟨len_full (EMA.makes p).yields hb hd hr, C82_ema hb hd hr⟩) fun e bs bs' hn i hi => ?_
    rw [one_mul]
    exact near_exp hp (hn.col hi).2.2.2.1 i le_rfl
  · refine stable_of (fun bs => expMean p (col Bar.c bs)) (fun bs it d hb hd i r hr =>
      ⟨len_full (Keltner.appends p).yields hb hd hr, ?_⟩) fun e bs bs' hn i hi => ?_
    · obtain ⟨x, hx, hc⟩ := hb.full
      obtain ⟨-, -, rfl⟩ := at_full (Keltner.appends p).yields hx hd hr
      show emaF p (cl x) i = _
      rw [hc.cl, emaF_expMean]
    · rw [one_mul]
      exact near_exp hp (hn.col hi).2.2.2.1 i le_rfl
  · refine stable_of (fun bs i => 2 * expMean p (col Bar.c bs) i - expMean p (expMean p (col Bar.c bs)) i)
      (fun bs it d hb hd i r hr => ⟨len_full (DEMA.makes p).yields hb hd hr, C82_dema hb hd hr⟩) fun e bs bs' hn i hi => ?_
    have h1 := near_exp hp (hn.col hi).2.2.2.1
    have g1 := abs_le.mp (h1 i le_rfl)
    have g2 := abs_le.mp (near_exp hp h1 i le_rfl)
    exact abs_le.mpr ⟨by linarith [g1.1, g2.2], by linarith [g1.2, g2.1]⟩

/-- **C130** It changes the differences of two averages by at most `2 e`, the MACD bar, which is doubled, by at most `8 e`. -/
theorem C130_differences {p q s : Nat} (hp : 1 ≤ p) (hq : 1 ≤ q) (hs : 1 ≤ s) :
    StableLine (K := K) 2 (APO p q).toIndicator Rec.value ∧ StableLine (K := K) 2 Awesome.toIndicator Rec.value ∧
    StableLine (K := K) 2 (MACD p s q).toIndicator MACD.Data.dif ∧ StableLine (K := K) 2 (MACD p s q).toIndicator MACD.Data.dea ∧
    StableLine (K := K) 8 (MACD p s q).toIndicator MACD.Data.macd := by
  have base : ∀ (e : K) (bs bs' : List (Bar K)), NearBars e bs bs' → ∀ i < bs.length,
      NearTo (2 * e) i (fun j => expMean p (col Bar.c bs) j - expMean q (col Bar.c bs) j)
        (fun j => expMean p (col Bar.c bs') j - expMean q (col Bar.c bs') j) := fun e bs bs' hn i hi => by
    have := near_sub (near_exp hp (hn.col hi).2.2.2.1) (near_exp hq (hn.col hi).2.2.2.1)
    rwa [← two_mul] at this
  refine ⟨?_, ?_, ?_, ?_, ?_⟩
  · exact stable_of (fun bs i => expMean p (col Bar.c bs) i - expMean q (col Bar.c bs) i) (fun bs it d hb hd i r hr =>
      ⟨len_full (APO.makes p q).yields hb hd hr, C82_apo hb hd hr⟩) fun e bs bs' hn i hi => base e bs bs' hn i hi i le_rfl
  · refine stable_of (fun bs i => expMean 5 (fun j => (col Bar.h bs j + col Bar.l bs j) / 2) i -
      expMean 34 (fun j => (col Bar.h bs j + col Bar.l bs j) / 2) i) (fun bs it d hb hd i r hr =>
      ⟨len_full Awesome.appends.yields hb hd hr, C82_awesome hb hd hr⟩) fun e bs bs' hn i hi => ?_
    have hm : NearTo e i (fun j => (col Bar.h bs j + col Bar.l bs j) / 2) (fun j => (col Bar.h bs' j + col Bar.l bs' j) / 2) := by
      intro j hj
      have g1 := abs_le.mp ((hn.col hi).2.1 j hj)
      have g2 := abs_le.mp ((hn.col hi).2.2.1 j hj)
      exact abs_le.mpr ⟨by linarith [g1.1, g2.1], by linarith [g1.2, g2.2]⟩
    have := near_sub (near_exp (p := 5) (by omega) hm) (near_exp (p := 34) (by omega) hm) i le_rfl
    rwa [← two_mul] at this
  · exact stable_of (fun bs i => expMean p (col Bar.c bs) i - expMean q (col Bar.c bs) i) (fun bs it d hb hd i r hr =>
      ⟨len_full (MACD.makes p s q).yields hb hd hr, (C82_macd hb hd hr).1⟩) fun e bs bs' hn i hi => base e bs bs' hn i hi i le_rfl
  · exact stable_of (fun bs => expMean s fun j => expMean p (col Bar.c bs) j - expMean q (col Bar.c bs) j)
      (fun bs it d hb hd i r hr => ⟨len_full (MACD.makes p s q).yields hb hd hr, (C82_macd hb hd hr).2.1⟩)
      fun e bs bs' hn i hi => near_exp hs (base e bs bs' hn i hi) i le_rfl
  · refine stable_of (fun bs i => 2 * ((expMean p (col Bar.c bs) i - expMean q (col Bar.c bs) i) -
      expMean s (fun j => expMean p (col Bar.c bs) j - expMean q (col Bar.c bs) j) i))
      (fun bs it d hb hd i r hr => ⟨len_full (MACD.makes p s q).yields hb hd hr, (C82_macd hb hd hr).2.2⟩)
      fun e bs bs' hn i hi => ?_
    have := near_sub (base e bs bs' hn i hi) (near_exp hs (base e bs bs' hn i hi)) i le_rfl
    beta_reduce at this ⊢
    rw [← mul_sub, abs_mul, abs_two]
    linarith

/-- **C130** It changes the Donchian lines and the five Ichimoku lines by at most `e`. -/
theorem C130_extremes {p c b l : Nat} (hc : 0 < c) (hb : 0 < b) :
    (StableLine (K := K) 1 (Donchian p).toIndicator Band.upper ∧ StableLine (K := K) 1 (Donchian p).toIndicator Band.lower ∧
      StableLine (K := K) 1 (Donchian p).toIndicator Band.middle) ∧
    StableLine (K := K) 1 (Ichimoku c b l).toIndicator Ichimoku.Data.conversion ∧
    StableLine (K := K) 1 (Ichimoku c b l).toIndicator Ichimoku.Data.base ∧
    StableLine (K := K) 1 (Ichimoku c b l).toIndicator Ichimoku.Data.spanA ∧
    StableLine (K := K) 1 (Ichimoku c b l).toIndicator Ichimoku.Data.spanB ∧
    StableLine (K := K) 1 (Ichimoku c b l).toIndicator Ichimoku.Data.lagging := by
  have don : ∀ (e : K) (bs bs' : List (Bar K)) (it it' : Item (XF K)) (d d' : List (Band (XF K))), NearBars e bs bs' → Holds it bs →
      Holds it' bs' → (Donchian p).data it = .ok d → (Donchian p).data it' = .ok d' → ∀ (i : Nat) r r', d[i]? = some r →
      d'[i]? = some r' → ∃ u l u' l', (r.upper = .fin u ∧ r.lower = .fin l ∧ r.middle = .fin ((u + l) / 2)) ∧
        (r'.upper = .fin u' ∧ r'.lower = .fin l' ∧ r'.middle = .fin ((u' + l') / 2)) ∧ |u - u'| ≤ e ∧ |l - l'| ≤ e := by
    intro e bs bs' it it' d d' hn hb hb' hd hd' i r r' hr hr'
    obtain ⟨u, l, h1, h2, h3, hg, hl, -⟩ := C48_donchian hb hd hr
    obtain ⟨u', l', h1', h2', h3', hg', hl', -⟩ := C48_donchian hb' hd' hr'
    exact ⟨u, l, u', l', ⟨h1, h2, h3⟩, ⟨h1', h2', h3'⟩,
      near_greatest hn.1 (fun j a b ha hb => (hn.2 j a b ha hb).2.2.2.1) hg hg',
      near_least hn.1 (fun j a b ha hb => (hn.2 j a b ha hb).2.2.2.1) hl hl'⟩
  have mid : ∀ (e : K) (bs bs' : List (Bar K)) (p q i : Nat) (v v' : K), NearBars e bs bs' → Midway bs p q i v →
      Midway bs' p q i v' → |v - v'| ≤ e := by
    rintro e bs bs' p q i v v' hn ⟨u, l, hu, hl, rfl⟩ ⟨u', l', hu', hl', rfl⟩
    have g1 := abs_le.mp (near_greatest hn.1 (fun j a b ha hb => (hn.2 j a b ha hb).2.1) hu hu')
    have g2 := abs_le.mp (near_least hn.1 (fun j a b ha hb => (hn.2 j a b ha hb).2.2.1) hl hl')
    exact abs_le.mpr ⟨by linarith [g1.1, g2.1], by linarith [g1.2, g2.2]⟩
  refine ⟨⟨?_, ?_, ?_⟩, ?_, ?_, ?_, ?_, ?_⟩
  · intro e bs bs' it it' d d' hn hb hb' hd hd' i r r' hr hr'
    obtain ⟨u, l, u', l', ⟨h, -⟩, ⟨h', -⟩, g, -⟩ := don e bs bs' it it' d d' hn hb hb' hd hd' i r r' hr hr'
    exact ⟨u, u', h, h', by rwa [one_mul]⟩
  · intro e bs bs' it it' d d' hn hb hb' hd hd' i r r' hr hr'
    obtain ⟨u, l, u', l', ⟨-, h, -⟩, ⟨-, h', -⟩, -, g⟩ := don e bs bs' it it' d d' hn hb hb' hd hd' i r r' hr hr'
    exact ⟨l, l', h, h', by rwa [one_mul]⟩
  · intro e bs bs' it it' d d' hn hb hb' hd hd' i r r' hr hr'
    obtain ⟨u, l, u', l', ⟨-, -, h⟩, ⟨-, -, h'⟩, g1, g2⟩ := don e bs bs' it it' d d' hn hb hb' hd hd' i r r' hr hr'
    have g1 := abs_le.mp g1
    have g2 := abs_le.mp g2
    exact ⟨_, _, h, h', abs_le.mpr ⟨by linarith [g1.1, g2.1], by linarith [g1.2, g2.2]⟩⟩
  all_goals
    intro e bs bs' it it' d d' hn hH hH' hd hd' i r r' hr hr'
    obtain ⟨cv, ba, sb, e1, e2, e3, e4, e5, m1, m2, m3⟩ := C81_ichimoku_partial hc hb hH hd hr
    obtain ⟨cv', ba', sb', e1', e2', e3', e4', e5', m1', m2', m3'⟩ := C81_ichimoku_partial hc hb hH' hd' hr'
    have g1 := mid e bs bs' _ _ _ _ _ hn m1 m1'
    have g2 := mid e bs bs' _ _ _ _ _ hn m2 m2'
    have g3 := mid e bs bs' _ _ _ _ _ hn m3 m3'
  · exact ⟨_, _, e1, e1', by rwa [one_mul]⟩
  · exact ⟨_, _, e2, e2', by rwa [one_mul]⟩
  · have g1 := abs_le.mp g1
    have g2 := abs_le.mp g2
    exact ⟨_, _, e3, e3', abs_le.mpr ⟨by linarith [g1.1, g2.1], by linarith [g1.2, g2.2]⟩⟩
  · exact ⟨_, _, e4, e4', by rwa [one_mul]⟩
  · refine ⟨_, _, e5, e5', ?_⟩
    rw [one_mul]
    have hi := len_full (Ichimoku.appends c b l).yields hH hd hr
    split
    · rw [sub_self, abs_zero]
      exact (hn.col hi).1.nonneg
    · exact (hn.col hi).2.2.2.1 _ (by omega)

/-- **C130** It changes the true range from the second candle on, and the average true range, by at most `2 e`, the outer Keltner
lines by at most `5 e`. -/
theorem C130_ranges {p : Nat} (hp : 0 < p) :
    StableLine (K := K) 2 (ATR p) ATR.Data.atr ∧ StableLine (K := K) 5 (Keltner p).toIndicator Band.upper ∧
    StableLine (K := K) 5 (Keltner p).toIndicator Band.lower := by
  have base : ∀ (e : K) (bs bs' : List (Bar K)), NearBars e bs bs' → ∀ i < bs.length,
      |(rmaK p (rangeOf (col Bar.h bs) (col Bar.l bs) (col Bar.c bs)) i).2 -
        (rmaK p (rangeOf (col Bar.h bs') (col Bar.l bs') (col Bar.c bs')) i).2| ≤ 2 * e := fun e bs bs' hn i hi => by
    obtain ⟨-, h1, h2, h3, -⟩ := hn.col hi
    exact (near_rma hp (fun j hj1 hj => near_range h1 h2 h3 hj hj1) (by have := h1.nonneg; linarith)).2
  have kel : ∀ (bs : List (Bar K)) (it : Item (XF K)) (d : List (Band (XF K))), Holds it bs → (Keltner p).data it = .ok d →
      ∀ (i : Nat) r, d[i]? = some r → i < bs.length ∧
        r.upper = .fin (expMean p (col Bar.c bs) i + 2 * (rmaK p (rangeOf (col Bar.h bs) (col Bar.l bs) (col Bar.c bs)) i).2) ∧
        r.lower = .fin (expMean p (col Bar.c bs) i - 2 * (rmaK p (rangeOf (col Bar.h bs) (col Bar.l bs) (col Bar.c bs)) i).2) := by
    intro bs it d hb hd i r hr
    have hi := len_full (Keltner.appends p).yields hb hd hr
    obtain ⟨m, w, -, h2, h3, h4, h5, -⟩ := C48_keltner (by omega) hb hd hr
    obtain ⟨x, hx⟩ := candles_tab it
    have hl : it.candles.length = bs.length := by simpa using congrArg List.length hb
    rw [hl] at hx
    have d1 := ((EMA.makes (F := XF K) p).yields it _ x hx).1 trivial
    have d2 := ((ATR.makes (F := XF K) p).yields it _ x hx).1 trivial
    have i1 := tab_getElem?_lt (x := EMA.out (F := XF K) p x) hi
    have i2 := tab_getElem?_lt (x := ATR.out (F := XF K) p x) hi
    obtain rfl : expMean p (col Bar.c bs) i = m := XF.fin.inj ((C82_ema hb d1 i1).symm.trans (h4 _ _ d1 i1))
    obtain rfl := XF.fin.inj ((atr_range hp hb d2 i2).2.2.symm.trans (h5 _ _ d2 i2))
    exact ⟨hi, h2, h3⟩
  refine ⟨?_, ?_, ?_⟩
  · exact stable_of (fun bs i => (rmaK p (rangeOf (col Bar.h bs) (col Bar.l bs) (col Bar.c bs)) i).2)
      (fun bs it d hb hd i r hr => ⟨(atr_range hp hb hd hr).1, (atr_range hp hb hd hr).2.2⟩) base
  · refine stable_of _ (fun bs it d hb hd i r hr => ⟨(kel bs it d hb hd i r hr).1, (kel bs it d hb hd i r hr).2.1⟩)
      fun e bs bs' hn i hi => ?_
    have g1 := abs_le.mp (base e bs bs' hn i hi)
    have g2 := abs_le.mp (near_exp (p := p) (by omega) (hn.col hi).2.2.2.1 i le_rfl)
    exact abs_le.mpr ⟨by linarith [g1.1, g2.1], by linarith [g1.2, g2.2]⟩
  · refine stable_of _ (fun bs it d hb hd i r hr => ⟨(kel bs it d hb hd i r hr).1, (kel bs it d hb hd i r hr).2.2⟩)
      fun e bs bs' hn i hi => ?_
    have g1 := abs_le.mp (base e bs bs' hn i hi)
    have g2 := abs_le.mp (near_exp (p := p) (by omega) (hn.col hi).2.2.2.1 i le_rfl)
    exact abs_le.mpr ⟨by linarith [g1.2, g2.1], by linarith [g1.1, g2.2]⟩

end Verif.Props
