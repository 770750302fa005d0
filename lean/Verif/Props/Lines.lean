import Verif.Props.Bands
import Verif.Props.Crossing

/-!
# Bands around a centre line, true range, on-balance volume, Ulcer index (C48 - C50, C59, C61, C62)
-/

set_option linter.unusedSectionVars false

namespace Verif.Props
open Verif Verif.Klines Verif.Ta Verif.Ind GoFloat XF

variable {F : Type} [GoFloat F] {K : Type} [Field K] [LinearOrder K] [IsStrictOrderedRing K]

/-! ## C62: the true range of `Atr` -/

/-- Wilder's true range of a bar after a bar with close `pc`. -/
def wilderRange (b : Bar K) (pc : K) : K := Max.max (b.h - b.l) (Max.max |b.h - pc| |b.l - pc|)

theorem trI_fin {n : Nat} {x : Nat → Candle (XF K)} {b : Nat → Bar K} (hc : Cols n x b) :
    trI x = finF fun i => Max.max ((b i).h - (b i).l)
      (Max.max ((b i).h - (if i = 0 then 0 else (b (i - 1)).c)) ((b i).l - (if i = 0 then 0 else (b (i - 1)).c))) := by
  funext i
  have e : (if i = 0 then (fl 0 : XF K) else Ind.cl x (i - 1)) = .fin (if i = 0 then 0 else (b (i - 1)).c) := by
    rw [hc.cl]
    split
    · rw [fl_fin, Int.cast_zero]
    · rfl
  rw [trI, e, hc.hi, hc.lo]
  simp only [sub_fin, max_fin]

/-- C62, what `Atr` stores as `TR`: at the first candle the larger of the range and the high itself, later
`max(h-l, h-pc, l-pc)` with the previous close `pc`. Partial: this is Wilder's true range only when the previous
close is not above the high (no gap down); see `C62_gap_down_refuted`. -/
theorem C62_true_range_partial {p : Int} {it : Item (XF K)} {bs : List (Bar K)} (hb : Holds it bs)
    {d : List (ATR.Data (XF K))} (hd : (ATR p).data it = .ok d) {i : Nat} {r : ATR.Data (XF K)} (hr : d[i]? = some r)
    {b : Bar K} (hbi : bs[i]? = some b) :
    (i = 0 → r.tr = .fin (Max.max (b.h - b.l) (Max.max b.h b.l))) ∧
    (∀ j q, i = j + 1 → bs[j]? = some q →
      r.tr = .fin (Max.max (b.h - b.l) (Max.max (b.h - q.c) (b.l - q.c))) ∧
      (b.l ≤ b.h → (r.tr = .fin (wilderRange b q.c) ↔ q.c ≤ b.h))) := by
  obtain ⟨x, f, hx, hbs, hc⟩ := hb.cols
  obtain ⟨hi, -, rfl, h1⟩ := at_index (b := f) (ATR.makes p).yields hx hd hr
  rw [hbs, h1] at hbi
  obtain rfl : f i = b := Option.some.inj hbi
  have etr : (ATR.out p x i).tr = trI x i := rfl
  rw [etr, trI_fin hc]
  refine ⟨?_, ?_⟩
  · rintro rfl
    simp
  · rintro j q rfl hq
    rw [hbs, tab_getElem?_lt (by omega)] at hq
    obtain rfl : f j = q := Option.some.inj hq
    simp only [Nat.add_eq_zero_iff, one_ne_zero, and_false, if_false, Nat.add_sub_cancel, fin_inj, true_and]
    intro hlh
    rw [wilderRange]
    generalize f (j + 1) = b at hlh
    generalize (f j).c = c
    have h2 : Max.max (b.h - c) (b.l - c) = b.h - c := max_eq_left (by linarith)
    rw [h2]
    constructor
    · intro h
      by_contra hlt
      push Not at hlt
      have h3 : Max.max (b.h - b.l) (b.h - c) = b.h - b.l := max_eq_left (by linarith)
      have h4 : |b.l - c| = c - b.l := by rw [abs_of_nonpos (by linarith)]; ring
      rw [h3] at h
      have : c - b.l ≤ b.h - b.l := by
        rw [h, ← h4]; exact (le_max_right _ _).trans (le_max_right _ _)
      linarith
    · intro h
      rw [abs_of_nonneg (show 0 ≤ b.h - c by linarith)]
      have : |b.l - c| ≤ Max.max (b.h - b.l) (b.h - c) := by
        rw [abs_le]
        constructor
        · have := le_max_left (b.h - b.l) (b.h - c); linarith
        · have := le_max_right (b.h - b.l) (b.h - c); linarith
      apply le_antisymm
      · exact max_le (le_max_left _ _) ((le_max_left _ _).trans (le_max_right _ _))
      · exact max_le (le_max_left _ _) (max_le (le_max_right _ _) this)

/-- C62 refuted: after a gap down (close 10, then a bar from 2 to 3) the true range is 8, `Atr` stores 1; and the
first candle's range is 2, `Atr` stores its high. -/
theorem C62_gap_down_refuted :
    (ATR 14).data (barItem [(⟨9, 11, 9, 10, 0⟩ : Bar ℚ), ⟨2, 3, 2, 2, 0⟩]) =
      .ok [⟨0, .fin 11, .fin 0⟩, ⟨0, .fin 1, .fin (1 / 2)⟩] ∧
    wilderRange (⟨2, 3, 2, 2, 0⟩ : Bar ℚ) 10 = 8 := by
  refine ⟨by decide +kernel, by decide +kernel⟩

example : (ATR 2).data (barItem threeBars) =
    .ok [⟨0, .fin 3, .fin 0⟩, ⟨0, .fin 3, .fin (3 / 2)⟩, ⟨0, .fin 3, .fin (9 / 4)⟩] := by decide +kernel

/-! ## C48 -/

/-- C48, Donchian: the upper band is the highest and the lower band the lowest close of the window, the middle is
their mean and lies between them. -/
theorem C48_donchian {p : Nat} {it : Item (XF K)} {bs : List (Bar K)} (hb : Holds it bs)
    {d : List (Band (XF K))} (hd : (Donchian p).data it = .ok d) {i : Nat} {r : Band (XF K)} (hr : d[i]? = some r) :
    ∃ u l, r.upper = .fin u ∧ r.lower = .fin l ∧ r.middle = .fin ((u + l) / 2) ∧
      IsGreatest {v | ∃ q ∈ window p i bs, q.c = v} u ∧ IsLeast {v | ∃ q ∈ window p i bs, q.c = v} l ∧
      l ≤ (u + l) / 2 ∧ (u + l) / 2 ≤ u := by
  obtain ⟨x, b, hx, hbs, hc⟩ := hb.cols
  obtain ⟨hi, hok, rfl, -⟩ := at_index (b := b) (Donchian.appends p).yields hx hd hr
  have hp : 0 < p := by
    rcases hok with h | ⟨-, h⟩
    · omega
    · omega
  obtain ⟨u, eu, hu⟩ := maxF_fin hp (fun j => (b j).c) i
  obtain ⟨l, el, hl⟩ := minF_fin hp (fun j => (b j).c) i
  have hul : l ≤ u := (hl.2 ⟨i, by omega, le_refl _, rfl⟩).trans (hu.2 ⟨i, by omega, le_refl _, rfl⟩)
  refine ⟨u, l, ?_, ?_, ?_, ?_, ?_, by linarith, by linarith⟩
  · show maxF _ _ _ = _
    rw [hc.cl, Int.toNat_natCast, eu]
  · show minF _ _ _ = _
    rw [hc.cl, Int.toNat_natCast, el]
  · show (maxF _ _ _ +. minF _ _ _) *. (fl 1 /. fl 2) = _
    have e1 : (fl 1 : XF K) = .fin 1 := by simp
    have e2 : (fl 2 : XF K) = .fin 2 := by simp
    rw [hc.cl, Int.toNat_natCast, eu, el, e1, e2, div_fin two_ne_zero, add_fin, mul_fin]
    congr 1; ring
  · rw [hbs]; exact isGreatest_window Bar.c b hi hu
  · rw [hbs]; exact isLeast_window Bar.c b hi hl

theorem rmaK_nonneg {p : Nat} (hp : 0 < p) {a : Nat → K} (h : ∀ j, 1 ≤ j → 0 ≤ a j) (i : Nat) :
    0 ≤ (rmaK p a i).1 ∧ 0 ≤ (rmaK p a i).2 := by
  have hp1 : (1 : K) ≤ p := by exact_mod_cast hp
  induction i with
  | zero => exact ⟨le_refl _, le_refl _⟩
  | succ k ih =>
    rw [rmaK]
    have ha := h (k + 1) (by omega)
    have hk : (0 : K) ≤ k := Nat.cast_nonneg k
    split
    · exact ⟨add_nonneg ih.1 ha, div_nonneg (add_nonneg ih.1 ha) (by linarith)⟩
    · have : 0 ≤ (rmaK p a k).2 * ((p : K) - 1) + a (k + 1) :=
        add_nonneg (mul_nonneg ih.2 (by linarith)) ha
      exact ⟨this, div_nonneg this (by linarith)⟩

/-- The value of `rmaK` at `i` uses only the inputs at `1..i`. -/
theorem rmaK_congr {p : Nat} {a a' : Nat → K} {i : Nat} (h : ∀ j, 1 ≤ j → j ≤ i → a j = a' j) :
    rmaK p a i = rmaK p a' i := by
  induction i with
  | zero => rfl
  | succ k ih => rw [rmaK, rmaK, ih fun j h1 h2 => h j h1 (by omega), h (k + 1) (by omega) (le_refl _)]

/-- C48, Keltner: the middle line is the `Ema` value of the candle, the bands lie at twice the `Atr` value above and
below it, and for bars with `low <= high` that distance is not negative. -/
theorem C48_keltner {p : Nat} (hp : 1 ≤ p) {it : Item (XF K)} {bs : List (Bar K)} (hb : Holds it bs)
    {d : List (Band (XF K))} (hd : (Keltner p).data it = .ok d) {i : Nat} {r : Band (XF K)} (hr : d[i]? = some r) :
    ∃ m w, r.middle = .fin m ∧ r.upper = .fin (m + 2 * w) ∧ r.lower = .fin (m - 2 * w) ∧
      (∀ de e, (EMA p).data it = .ok de → de[i]? = some e → e.value = .fin m) ∧
      (∀ da a, (ATR p).data it = .ok da → da[i]? = some a → a.atr = .fin w) ∧
      ((∀ b ∈ bs, b.l ≤ b.h) → 0 ≤ w ∧ m - 2 * w ≤ m ∧ m ≤ m + 2 * w) := by
  obtain ⟨x, b, hx, hbs, hc⟩ := hb.cols
  obtain ⟨hi, -, rfl, -⟩ := at_index (b := b) (Keltner.appends p).yields hx hd hr
  have e2 : (fl 2 : XF K) = .fin 2 := by simp
  have em : emaF p (Ind.cl x) i = .fin (emaK p (fun j => (b j).c) i) := by rw [hc.cl, emaF_fin]
  obtain ⟨t, et, ht⟩ : ∃ t, trI x = finF t ∧ ∀ j, (b j).h - (b j).l ≤ t j :=
    ⟨_, trI_fin hc, fun j => le_max_left _ _⟩
  have ew : rmaF p (trI x) i = .fin (rmaK p t i).2 := by rw [et, rmaF_fin (by omega)]
  refine ⟨_, (rmaK p t i).2, em, ?_, ?_, fun de e h1 h2 => ?_, fun da a h1 h2 => ?_, fun hw => ?_⟩
  · show emaF _ _ _ +. rmaF _ _ _ *. fl 2 = _
    rw [em, ew, e2, mul_fin, add_fin, mul_comm]
  · show subF (emaF _ _ _) (rmaF _ _ _ *. fl 2) = _
    rw [em, ew, e2, mul_fin, subF_fin, mul_comm]
  · obtain ⟨-, -, rfl, -⟩ := at_index (b := b) (EMA.makes p).yields hx h1 h2
    exact em
  · obtain ⟨-, -, rfl, -⟩ := at_index (b := b) (ATR.makes p).yields hx h1 h2
    exact ew
  · have hnn : 0 ≤ (rmaK p t i).2 := by
      have e : rmaK p t i = rmaK p (fun j => if j < bs.length then t j else 0) i :=
        rmaK_congr fun j _ h => by rw [if_pos (by omega)]
      rw [e]
      refine (rmaK_nonneg (by omega) (fun j _ => ?_) i).2
      split
      · next hj =>
        have := hw (b j) (by rw [hbs]; exact mem_tab.mpr ⟨j, hj, rfl⟩)
        have := ht j
        linarith
      · exact le_refl _
    exact ⟨hnn, by linarith, by linarith⟩

theorem bollS_fin {p : Nat} (hp : 0 < p) (a : Nat → ℝ) (k : Nat) :
    bollS p (finF a) k = .fin (psum (fun j => a j * a j) k - psum (fun j => a j * a j) (k + 1 - p)) := by
  induction k with
  | zero =>
    rw [bollS, fl_fin, show 0 + 1 - p = 0 by omega]
    simp
  | succ k ih =>
    rw [bollS, ih]
    have e0 : finF a k = .fin (a k) := rfl
    split
    · next h =>
      rw [e0, mul_fin, add_fin, psum_succ, show k + 1 - p = 0 by omega, show k + 1 + 1 - p = 0 by omega]
      congr 1; ring
    · next h =>
      have e1 : finF a (k + 1 - p) = .fin (a (k + 1 - p)) := rfl
      rw [e0, e1, mul_fin, mul_fin, add_fin, sub_fin, psum_succ, show k + 1 + 1 - p = (k + 1 - p) + 1 by omega,
        psum_succ _ (k + 1 - p)]
      congr 1; ring

/-- C48, Bollinger: the middle line is the mean of the closes of the window, `MD` the population standard deviation
of a full window (0 before), and the bands lie at distance `MD` above and below: lower <= middle <= upper. -/
theorem C48_boll {p : Nat} {k : Int} {it : Item (XF ℝ)} {bs : List (Bar ℝ)} (hb : Holds it bs)
    {d : List (Boll.Data (XF ℝ))} (hd : (Boll p k).data it = .ok d) {i : Nat} {r : Boll.Data (XF ℝ)}
    (hr : d[i]? = some r) :
    let w := window p i (bs.map Bar.c)
    let s := if i + 1 < p then 0 else Real.sqrt (pvar w)
    r.middle = .fin (mean w) ∧ r.md = .fin s ∧ r.upper = .fin (mean w + s) ∧ r.lower = .fin (mean w - s) ∧
      mean w - s ≤ mean w ∧ mean w ≤ mean w + s := by
  intro w s
  obtain ⟨x, b, hx, hbs, hc⟩ := hb.cols
  obtain ⟨hi, hok, rfl, -⟩ := at_index (b := b) (Boll.makes p k).yields hx hd hr
  have hp : 0 < p := by rcases hok with h | h <;> omega
  have ew : bs.map Bar.c = tab bs.length fun j => (b j).c := by
    conv_lhs => rw [hbs]
    rw [map_tab]
  have hs : 0 ≤ s := by
    show 0 ≤ ite _ _ _
    split
    · exact le_refl _
    · exact Real.sqrt_nonneg _
  have e1 : smaF p (Ind.cl x) i = .fin (mean w) := by
    show _ = XF.fin (mean (window p i (bs.map Bar.c)))
    rw [hc.cl, smaF_fin hp, ew, mean_window _ hi]
  have e2 : dmaF p (Ind.cl x) i = .fin s := by
    rw [dmaF]
    show _ = XF.fin (ite _ _ _)
    by_cases h : i + 1 < p
    · rw [if_pos h, if_pos h, fl_fin, Int.cast_zero]
    · rw [if_neg h, if_neg h, e1, hc.cl, bollS_fin hp, fl_nat]
      have e0 : finF (fun j => (b j).c) i = .fin (b i).c := rfl
      rw [e0, mul_fin, add_fin, div_fin (natCast_ne hp), mul_fin, sub_fin]
      have ev : (psum (fun j => (b j).c * (b j).c) i - psum (fun j => (b j).c * (b j).c) (i + 1 - p) +
          (b i).c * (b i).c) / p - mean w * mean w = pvar w := by
        show _ - mean (window p i (bs.map Bar.c)) * mean (window p i (bs.map Bar.c)) = pvar (window p i (bs.map Bar.c))
        rw [ew, window_tab _ hi, show i + 1 - (i + 1 - p) = p by omega, pvar_tab, mean, sum_tab, tab_length,
          ← var_identity hp]
        congr 2
        have := psum_add (fun j => (b j).c * (b j).c) (i + 1 - p) p
        rw [show i + 1 - p + p = i + 1 by omega, psum_succ] at this
        linarith
      rw [ev, sqrt_fin (pvar_nonneg _)]
  refine ⟨e1, e2, ?_, ?_, by linarith, by linarith⟩
  · show smaF p _ i +. dmaF p _ i = _
    rw [e1, e2, add_fin]
  · show subF (smaF p _ i) (dmaF p _ i) = _
    rw [e1, e2, subF_fin]

example : (Donchian 2).data (barItem threeBars) =
    .ok [⟨0, .fin 2, .fin 2, .fin 2⟩, ⟨0, .fin 4, .fin 3, .fin 2⟩, ⟨0, .fin 4, .fin (5 / 2), .fin 1⟩] ∧
    (Keltner 2).data (barItem threeBars) =
    .ok [⟨0, .fin 2, .fin 2, .fin 2⟩, ⟨0, .fin (19 / 3), .fin (10 / 3), .fin (1 / 3)⟩,
      ⟨0, .fin (16 / 9 + 9 / 2), .fin (16 / 9), .fin (16 / 9 - 9 / 2)⟩] ∧
    (∀ b ∈ threeBars, b.l ≤ b.h) := by
  refine ⟨by decide +kernel, by decide +kernel, by decide⟩

/-- Bars of which only the close matters. -/
def flatBars (l : List K) : List (Bar K) := l.map fun c => ⟨c, c, c, c, 0⟩

/-- The Bollinger records of a series of closes exist for every period `>= 1`. -/
theorem boll_data {p : Nat} (hp : 1 ≤ p) (k : Int) (l : List ℝ) :
    ∃ d, (Boll p k).data (barItem (flatBars l)) = .ok d ∧ d.length = l.length := by
  obtain ⟨x, -, hx, -⟩ := (holds_barItem (flatBars l)).cols
  refine ⟨_, ((Boll.makes p k).yields _ _ x hx).1 (Or.inl (by omega)), ?_⟩
  rw [tab_length, flatBars, List.length_map]

/-! ## C61 -/

/-- C61, partial: the bands of `NewBoll(item, p, k)` are `k` deviations wide exactly when `k = 1` or the deviation
is 0; the code does not read `PeriodK`. -/
theorem C61_boll_width_partial {p : Nat} {k : Int} {it : Item (XF ℝ)} {bs : List (Bar ℝ)} (hb : Holds it bs)
    {d : List (Boll.Data (XF ℝ))} (hd : (Boll p k).data it = .ok d) {i : Nat} {r : Boll.Data (XF ℝ)}
    (hr : d[i]? = some r) :
    ∃ m s, r.middle = .fin m ∧ r.md = .fin s ∧
      ((r.upper = .fin (m + k * s) ∧ r.lower = .fin (m - k * s)) ↔ (k = 1 ∨ s = 0)) := by
  obtain ⟨h1, h2, h3, h4, -⟩ := C48_boll hb hd hr
  refine ⟨_, _, h1, h2, ?_⟩
  rw [h3, h4, fin_inj, fin_inj]
  generalize (if i + 1 < p then 0 else _ : ℝ) = s
  constructor
  · rintro ⟨h, -⟩
    have : ((k : ℝ) - 1) * s = 0 := by linarith
    rcases mul_eq_zero.mp this with h | h
    · left
      have : (k : ℝ) = 1 := by linarith
      exact_mod_cast this
    · right; exact h
  · rintro (h | h)
    · rw [h]; constructor <;> push_cast <;> ring
    · rw [h]; constructor <;> ring

/-- C61 refuted for the default two deviations: closes 0, 2 with period 2 have mean 1 and deviation 1; the upper
band is 2 and not 3. -/
theorem C61_two_deviations_refuted : ∃ (d : List (Boll.Data (XF ℝ))) (r : Boll.Data (XF ℝ)),
    (Boll 2 2).data (barItem (flatBars [0, 2])) = .ok d ∧ d[1]? = some r ∧
    r.middle = .fin 1 ∧ r.md = .fin 1 ∧ r.upper = .fin 2 := by
  obtain ⟨d, hd, hl⟩ := boll_data (p := 2) (by omega) 2 [0, 2]
  obtain ⟨r, hr⟩ : ∃ r, d[1]? = some r := ⟨_, List.getElem?_eq_getElem (by rw [hl]; decide)⟩
  obtain ⟨h1, h2, h3, -⟩ := C48_boll (p := 2) (holds_barItem _) hd hr
  have e : window 2 1 ((flatBars ([0, 2] : List ℝ)).map Bar.c) = [0, 2] := by simp [window, flatBars]
  rw [e] at h1 h2 h3
  have em : mean ([0, 2] : List ℝ) = 1 := by norm_num [mean]
  have ev : pvar ([0, 2] : List ℝ) = 1 := by norm_num [pvar, em]
  rw [em] at h1 h3
  rw [ev] at h2 h3
  simp only [show ¬ (1 + 1 < 2) by omega, if_false, Real.sqrt_one] at h2 h3
  refine ⟨d, r, hd, hr, h1, h2, ?_⟩
  rw [h3]; norm_num

/-! ## C49 -/

section boll
variable {G : Type} [GoMath G]

/-- C49, partial: what the Bollinger strategy does. `Buy` exactly when the close rises above the *upper* band, and
`Sell` never, because the code compares `prevPrice` with itself. Missing: `Sell` above the upper band and `Buy` below
the lower band as documented (`C49_boll_sides_refuted`). -/
theorem C49_boll_sides_partial (ha : LtAsymm G) {p k : Int} {it : Item G} {d : List (Boll.Data G)} {s : List Side}
    (hd : (Boll p k).data it = .ok d) (hs : (Boll p k).signals it = .ok s) {i : Nat}
    {u v : Boll.Data G} {cu cv : Candle G} {side : Side} (hu : d[i]? = some u) (hv : d[i + 1]? = some v)
    (hcu : it.candles[i]? = some cu) (hcv : it.candles[i + 1]? = some cv) (hside : s[i + 1]? = some side) :
    (side = Buy ↔ (cv.close >. v.upper) = true ∧ (cu.close <. u.upper) = true) ∧ side ≠ Sell := by
  obtain ⟨x, hx⟩ := candles_tab it
  obtain ⟨-, rfl⟩ := yields_inv (Boll.makes p k).yields hx hd
  obtain ⟨-, rfl⟩ := signals_inv (Boll.signals p k) hx hs
  have hi : i + 1 < it.candles.length := (List.getElem?_eq_some_iff.mp hcv).1
  generalize it.candles.length = n at hx hi hu hv hside
  rw [tab_getElem?_lt hi] at hv hside
  rw [tab_getElem?_lt (by omega)] at hu
  rw [hx, tab_getElem?_lt hi] at hcv
  rw [hx, tab_getElem?_lt (by omega)] at hcu
  cases hu; cases hv; cases hside; cases hcu; cases hcv
  have hirr : (Ind.cl x i >. Ind.cl x i) = false := by
    by_contra h
    have h : (Ind.cl x i <. Ind.cl x i) = true := by simpa [GoFloat.gt] using h
    have := ha _ _ h
    rw [h] at this
    cases this
  show (Boll.rule _ _ (Ind.cl x i) (Ind.cl x (i + 1)) = Buy ↔ (Ind.cl x (i + 1) >. _) = true ∧ (Ind.cl x i <. _) = true) ∧
    Boll.rule _ _ (Ind.cl x i) (Ind.cl x (i + 1)) ≠ Sell
  rw [Boll.rule, hirr, Bool.and_false]
  simp only [Bool.false_eq_true, if_false, Bool.and_eq_true]
  constructor
  · constructor
    · intro h
      by_contra hn
      rw [if_neg hn] at h
      cases h
    · intro h
      rw [if_pos h]
  · split <;> (intro h; cases h)

end boll

/-- The records and signals of a close series, at index 2, for period 3. -/
theorem boll_three (a b c : ℝ) : ∃ (d : List (Boll.Data (XF ℝ))) (s : List Side) (u v : Boll.Data (XF ℝ)) (x : Side),
    (Boll 3 2).data (barItem (flatBars [a, b, c])) = .ok d ∧
    (Boll 3 2).signals (barItem (flatBars [a, b, c])) = .ok s ∧
    d[1]? = some u ∧ d[2]? = some v ∧ s[2]? = some x ∧
    u.upper = .fin ((a + b) / 2) ∧ u.lower = .fin ((a + b) / 2) ∧
    v.upper = .fin ((a + b + c) / 3 + Real.sqrt (pvar [a, b, c])) ∧
    v.lower = .fin ((a + b + c) / 3 - Real.sqrt (pvar [a, b, c])) ∧
    (x = Buy ↔ (a + b + c) / 3 + Real.sqrt (pvar [a, b, c]) < c ∧ b < (a + b) / 2) ∧ x ≠ Sell := by
  obtain ⟨d, hd, hl⟩ := boll_data (p := 3) (by omega) 2 [a, b, c]
  obtain ⟨u, hu⟩ : ∃ r, d[1]? = some r := ⟨_, List.getElem?_eq_getElem (by rw [hl]; simp)⟩
  obtain ⟨v, hv⟩ : ∃ r, d[2]? = some r := ⟨_, List.getElem?_eq_getElem (by rw [hl]; simp)⟩
  obtain ⟨y, hy⟩ := candles_tab (barItem (flatBars [a, b, c]))
  have hs := ((Boll.signals 3 2) (barItem (flatBars [a, b, c])) _ y hy).1 (Or.inl (by omega))
  have hx := tab_getElem?_lt (α := Side) (n := (barItem (flatBars [a, b, c])).candles.length)
    (x := fun i => closeSide Boll.rule (Boll.out 3 y) (Ind.cl y) i) (i := 2) (by simp [barItem, flatBars])
  obtain ⟨-, -, h3, h4, -⟩ := C48_boll (p := 3) (holds_barItem _) hd hu
  obtain ⟨-, -, h5, h6, -⟩ := C48_boll (p := 3) (holds_barItem _) hd hv
  have e1 : window 3 1 ((flatBars ([a, b, c] : List ℝ)).map Bar.c) = [a, b] := by simp [window, flatBars]
  have e2 : window 3 2 ((flatBars ([a, b, c] : List ℝ)).map Bar.c) = [a, b, c] := by simp [window, flatBars]
  have m1 : mean [a, b] = (a + b) / 2 := by simp [mean]
  have m2 : mean [a, b, c] = (a + b + c) / 3 := by
    simp only [mean, List.sum_cons, List.sum_nil, List.length_cons, List.length_nil]
    norm_num; ring
  rw [e1, m1] at h3 h4
  rw [e2, m2] at h5 h6
  simp only [show 1 + 1 < 3 by omega, if_true, add_zero, sub_zero] at h3 h4
  simp only [show ¬ 2 + 1 < 3 by omega, if_false] at h5 h6
  obtain ⟨k1, k2⟩ := C49_boll_sides_partial ltAsymm_XF hd hs hu hv (cu := candleOf 0 b b b b 0) (cv := candleOf 0 c c c c 0)
    (by simp [barItem, flatBars]) (by simp [barItem, flatBars]) hx
  refine ⟨d, _, u, v, _, hd, hs, hu, hv, hx, h3, h4, h5, h6, ?_, k2⟩
  rw [k1, h3, h5]
  show ((XF.fin _ <. XF.fin c) = true ∧ (XF.fin b <. XF.fin _) = true) ↔ _
  rw [lt_fin, lt_fin, decide_eq_true_iff, decide_eq_true_iff]

/-- C49 refuted: closes 1, 0, 4 cross the upper band at the third candle and give `Buy` (documented: `Sell`); closes
0, 1, -3 cross the lower band and do not give `Buy`. -/
theorem C49_boll_sides_refuted :
    (∃ (d : List (Boll.Data (XF ℝ))) (s : List Side) (u v : Boll.Data (XF ℝ)) (pu pv : ℝ),
      (Boll 3 2).data (barItem (flatBars ([1, 0, 4] : List ℝ))) = .ok d ∧ (Boll 3 2).signals (barItem (flatBars ([1, 0, 4] : List ℝ))) = .ok s ∧
      d[1]? = some u ∧ d[2]? = some v ∧ u.upper = .fin pu ∧ v.upper = .fin pv ∧ 0 < pu ∧ pv < 4 ∧
      s[2]? = some Buy) ∧
    (∃ (d : List (Boll.Data (XF ℝ))) (s : List Side) (u v : Boll.Data (XF ℝ)) (pu pv : ℝ) (x : Side),
      (Boll 3 2).data (barItem (flatBars ([0, 1, -3] : List ℝ))) = .ok d ∧
      (Boll 3 2).signals (barItem (flatBars ([0, 1, -3] : List ℝ))) = .ok s ∧
      d[1]? = some u ∧ d[2]? = some v ∧ u.lower = .fin pu ∧ v.lower = .fin pv ∧ pu < 1 ∧ -3 < pv ∧
      s[2]? = some x ∧ x ≠ Buy ∧ x ≠ Sell) := by
  have v1 : pvar ([1, 0, 4] : List ℝ) = 26 / 9 := by norm_num [pvar, mean]
  have v2 : pvar ([0, 1, -3] : List ℝ) = 26 / 9 := by norm_num [pvar, mean]
  have hq : Real.sqrt (26 / 9) < 2 := by
    rw [Real.sqrt_lt' (by norm_num)]; norm_num
  constructor
  · obtain ⟨d, s, u, v, x, hd, hs, hu, hv, hx, h1, h2, h3, h4, h5, h6⟩ := boll_three 1 0 4
    rw [v1] at h3 h5
    have hb : x = Buy := h5.mpr ⟨by linarith, by norm_num⟩
    rw [hb] at hx
    exact ⟨d, s, u, v, _, _, hd, hs, hu, hv, h1, h3, by norm_num, by linarith, hx⟩
  · obtain ⟨d, s, u, v, x, hd, hs, hu, hv, hx, h1, h2, h3, h4, h5, h6⟩ := boll_three 0 1 (-3)
    rw [v2] at h4
    refine ⟨d, s, u, v, _, _, x, hd, hs, hu, hv, h2, h4, by norm_num, by linarith, hx, ?_, h6⟩
    intro h
    have := (h5.mp h).2
    norm_num at this

/-! ## C50 -/

/-- The volume of bar `j` with the sign of the change of the close. -/
def signedVolume (bs : List (Bar K)) (j : Nat) : K :=
  if col Bar.c bs (j - 1) < col Bar.c bs j then col Bar.v bs j
  else if col Bar.c bs j < col Bar.c bs (j - 1) then - col Bar.v bs j else 0

/-- C50: `Obv` at candle `i` is the sum of the signed volumes of the candles `1..i`. -/
theorem C50_obv_sum {it : Item (XF K)} {bs : List (Bar K)} (hb : Holds it bs)
    {d : List (Rec (XF K))} (hd : OBV.data it = .ok d) {i : Nat} {r : Rec (XF K)} (hr : d[i]? = some r) :
    r.value = .fin (∑ j ∈ Finset.Ico 1 (i + 1), signedVolume bs j) := by
  obtain ⟨x, b, hx, hbs, hc⟩ := hb.cols
  obtain ⟨hi, -, rfl, -⟩ := at_index (b := b) OBV.grows.yields hx hd hr
  have ec : ∀ j, j < bs.length → ∀ f : Bar K → K, col f bs j = f (b j) := fun j hj f => by
    conv_lhs => rw [hbs]
    exact col_tab _ b hj
  show obvF x i = _
  clear hr hd
  induction i with
  | zero => simp [obvF]
  | succ k ih =>
    rw [obvF, ih (by omega), hc.cl, hc.vo, Finset.sum_Ico_succ_top (show 1 ≤ k + 1 by omega)]
    simp only [GoFloat.gt, lt_fin, eq_fin, add_fin, sub_fin]
    have es : signedVolume bs (k + 1) = if (b k).c < (b (k + 1)).c then (b (k + 1)).v
        else if (b (k + 1)).c < (b k).c then - (b (k + 1)).v else 0 := by
      rw [signedVolume, ec _ hi, ec _ hi, Nat.add_sub_cancel, ec _ (by omega)]
    rw [es]
    by_cases h1 : (b k).c < (b (k + 1)).c
    · simp [h1]
    · by_cases h2 : (b (k + 1)).c < (b k).c
      · simp [h1, h2, sub_eq_add_neg]
      · have h3 : (b (k + 1)).c = (b k).c := le_antisymm (not_lt.mp h1) (not_lt.mp h2)
        simp [h3]

example : OBV.data (barItem threeBars) = .ok [⟨0, .fin 0⟩, ⟨0, .fin 20⟩, ⟨0, .fin (-10)⟩] := by decide +kernel

/-! ## C59 -/

/-- C59: with `dd j` the drawdown in percent of close `j` from the highest close `m j` of its window (0 when that is
0), the Ulcer index is a number `>= 0` whose square is the period-`p` exponential average of `dd²`; it is 0 while
every close so far was the highest of its window. -/
theorem C59_ulcer {p : Nat} {it : Item (XF ℝ)} {bs : List (Bar ℝ)} (hb : Holds it bs)
    {d : List (Rec (XF ℝ))} (hd : (Ulcer p).data it = .ok d) :
    ∃ m u : Nat → ℝ, (∀ i < bs.length, IsGreatest {v | ∃ q ∈ window p i bs, q.c = v} (m i)) ∧
      (∀ (i : Nat) (r : Rec (XF ℝ)), d[i]? = some r → r.value = .fin (u i)) ∧ (∀ i, 0 ≤ u i) ∧
      (let dd := fun j => (col Bar.c bs j - m j) / m j * 100
       (0 < bs.length → u 0 ^ 2 = dd 0 ^ 2) ∧
       (∀ i, i + 1 < bs.length → u (i + 1) ^ 2 = (2 * dd (i + 1) ^ 2 + ((p : ℝ) - 1) * u i ^ 2) / ((p : ℝ) + 1))) ∧
      (∀ i < bs.length, (∀ j ≤ i, col Bar.c bs j = m j) → u i = 0) := by
  obtain ⟨x, b, hx, hbs, hc⟩ := hb.cols
  by_cases hn : bs.length = 0
  · refine ⟨fun _ => 0, fun _ => 0, fun i hi => absurd hi (by omega), fun i r hr => ?_, fun _ => le_refl _,
      ⟨fun h => absurd h (by omega), fun i hi => absurd hi (by omega)⟩, fun i hi => absurd hi (by omega)⟩
    obtain ⟨hi, -⟩ := at_index (b := b) (Ulcer.appends p).yields hx hd hr
    omega
  have hp : 1 ≤ p := by
    obtain ⟨hok, -⟩ := yields_inv (Ulcer.appends p).yields hx hd
    rcases hok with h | ⟨-, h⟩ <;> omega
  choose m em hm using fun i => maxF_fin (p := p) (by omega) (fun j => (b j).c) i
  have edd : ∀ j, ddF p x j = .fin (((b j).c - m j) / m j * 100) := fun j => by
    have e100 : (fl 100 : XF ℝ) = .fin 100 := by simp
    rw [ddF, hc.cl, Int.toNat_natCast, em, subF_fin, safeDiv_fin_eq, e100, mul_fin]
  have esq : (fun j => ddF p x j *. ddF p x j) = finF fun j => (((b j).c - m j) / m j * 100) ^ 2 := by
    funext j
    rw [edd, mul_fin, ← pow_two]
  have hnn : ∀ i, 0 ≤ emaK p (fun j => (((b j).c - m j) / m j * 100) ^ 2) i := fun i => by
    have hp' : (1 : ℝ) ≤ p := by exact_mod_cast hp
    induction i with
    | zero => exact sq_nonneg _
    | succ k ih =>
      rw [emaK]
      exact div_nonneg (add_nonneg (mul_nonneg zero_le_two (sq_nonneg _)) (mul_nonneg (by linarith) ih)) (by linarith)
  have ec : ∀ j, j < bs.length → col Bar.c bs j = (b j).c := fun j hj => by
    rw [hbs]; exact col_tab _ b (by omega)
  refine ⟨m, fun i => Real.sqrt (emaK p (fun j => (((b j).c - m j) / m j * 100) ^ 2) i), fun i hi => ?_,
    fun i r hr => ?_, fun i => Real.sqrt_nonneg _, ⟨fun h => ?_, fun i hi => ?_⟩, fun i hi h => ?_⟩
  · have := isGreatest_window Bar.c b hi (hm i)
    rwa [← hbs] at this
  · obtain ⟨hi, -, rfl, -⟩ := at_index (b := b) (Ulcer.appends p).yields hx hd hr
    show GoMath.sqrt _ = _
    rw [esq, emaF_fin, sqrt_fin (hnn i)]
  · rw [Real.sq_sqrt (hnn 0), emaK]; simp only [ec 0 h]
  · rw [Real.sq_sqrt (hnn _), Real.sq_sqrt (hnn _), emaK]; simp only [ec _ hi]
  · have : emaK p (fun j => (((b j).c - m j) / m j * 100) ^ 2) i = 0 := by
      clear hnn
      induction i with
      | zero =>
        have := h 0 (le_refl _)
        rw [ec 0 hi] at this
        rw [emaK, this, sub_self, zero_div, zero_mul, zero_pow two_ne_zero]
      | succ k ih =>
        have h' := h (k + 1) (le_refl _)
        rw [ec _ hi] at h'
        rw [emaK, ih (by omega) fun j hj => h j (by omega), h', sub_self, zero_div, zero_mul, zero_pow two_ne_zero]
        simp
    simp [this]

example : ∃ d, (Ulcer 2).data (barItem (flatBars ([2, 4, 1] : List ℝ))) = .ok d := by
  obtain ⟨x, -, hx, -⟩ := (holds_barItem (flatBars ([2, 4, 1] : List ℝ))).cols
  exact ⟨_, ((Ulcer.appends (2 : Nat)).yields _ _ x hx).1 (Or.inl (by omega))⟩

end Verif.Props
