import Verif.Props.Bars
import Verif.Props.TaAvg

/-!
# Percentages (C43 - C46)
-/

set_option linter.unusedSectionVars false

namespace Verif.Props
open Verif Verif.Klines Verif.Ta Verif.Ind GoFloat XF

variable {F : Type} [GoFloat F] {K : Type} [Field K] [LinearOrder K] [IsStrictOrderedRing K]

/-! ## C43 -/

/-- Rise of the close at bar `j` (0 when it falls). -/
def gain (bs : List (Bar K)) (j : Nat) : K :=
  match bs[j - 1]?, bs[j]? with
  | some a, some b => max (b.c - a.c) 0
  | _, _ => 0
/-- Fall of the close at bar `j` (0 when it rises). -/
def loss (bs : List (Bar K)) (j : Nat) : K :=
  match bs[j - 1]?, bs[j]? with
  | some a, some b => max (a.c - b.c) 0
  | _, _ => 0

/-- Wilder's average of period `p` at bar `p + m`: the mean of the values at bars 1 to `p`, then
`((p-1) * previous + new) / p`. -/
def wilderAvg (p : Nat) (g : Nat → K) : Nat → K
  | 0 => (∑ j ∈ Finset.range p, g (j + 1)) / p
  | m + 1 => (((p : K) - 1) * wilderAvg p g m + g (p + m + 1)) / p

theorem wilderAvg_nonneg {p : Nat} (hp : 1 ≤ p) {g : Nat → K} (hg : ∀ j, 0 ≤ g j) (m : Nat) :
    0 ≤ wilderAvg p g m := by
  have h1 : (1 : K) ≤ p := by exact_mod_cast hp
  induction m with
  | zero => exact div_nonneg (Finset.sum_nonneg fun j _ => hg _) (by linarith)
  | succ m ih => exact div_nonneg (add_nonneg (mul_nonneg (by linarith) ih) (hg _)) (by linarith)

theorem wilderAvg_congr {p : Nat} {g g' : Nat → K} {m : Nat} (h : ∀ j, 1 ≤ j → j ≤ p + m → g j = g' j) :
    wilderAvg p g m = wilderAvg p g' m := by
  induction m with
  | zero =>
    simp only [wilderAvg]
    congr 1
    exact Finset.sum_congr rfl fun j hj => h _ (by omega) (by have := Finset.mem_range.mp hj; omega)
  | succ m ih => rw [wilderAvg, wilderAvg, ih fun j h1 h2 => h j h1 (by omega), h _ (by omega) (by omega)]

theorem gain_nonneg (bs : List (Bar K)) (j : Nat) : 0 ≤ gain bs j := by
  unfold gain; split <;> simp
theorem loss_nonneg (bs : List (Bar K)) (j : Nat) : 0 ≤ loss bs j := by
  unfold loss; split <;> simp

theorem rsiStep_fin (g l d : K) : rsiStep (XF.fin g, XF.fin l) (XF.fin d) = (.fin (g + max d 0), .fin (l + max (-d) 0)) := by
  have e : (fl 0 : XF K) = .fin 0 := by simp
  unfold rsiStep
  rw [e, lt_fin]
  by_cases h : d < 0
  · simp only [h, decide_true, if_true, sub_fin]
    rw [max_eq_right h.le, max_eq_left (by linarith), add_zero, sub_eq_add_neg]
  · simp only [h, decide_false, Bool.false_eq_true, if_false, add_fin]
    rw [max_eq_left (not_lt.mp h), max_eq_right (by linarith [not_lt.mp h]), add_zero]

theorem rsiInit_fin (c : Nat → K) (k : Nat) :
    rsiInit (finF c) k = (.fin (∑ j ∈ Finset.range k, max (c (j + 1) - c j) 0),
      .fin (∑ j ∈ Finset.range k, max (c j - c (j + 1)) 0)) := by
  induction k with
  | zero => simp [rsiInit]
  | succ k ih =>
    rw [rsiInit, ih, sub_fin, rsiStep_fin, Finset.sum_range_succ, Finset.sum_range_succ, neg_sub]

theorem rsiW_fin {p : Nat} (hp : 1 ≤ p) (c : Nat → K) (m : Nat) :
    rsiW p (finF c) m = (.fin (wilderAvg p (fun j => max (c j - c (j - 1)) 0) m),
      .fin (wilderAvg p (fun j => max (c (j - 1) - c j) 0) m)) := by
  have hp' : (p : K) ≠ 0 := natCast_ne hp
  induction m with
  | zero =>
    rw [rsiW, rsiInit_fin, fl_nat]
    simp only [div_fin hp', wilderAvg, Nat.add_sub_cancel]
  | succ m ih =>
    have e1 : (fl ((p : Int) - 1) : XF K) = .fin ((p : K) - 1) := by simp
    rw [rsiW, ih, e1, fl_nat]
    simp only [mul_fin, sub_fin, rsiStep_fin, div_fin hp', neg_sub, wilderAvg, Nat.add_sub_cancel]
    rw [mul_comm ((p : K) - 1), mul_comm ((p : K) - 1)]

theorem rsiVal_fin {g l : K} (hg : 0 ≤ g) (hl : 0 ≤ l) :
    rsiVal (XF.fin g, XF.fin l) = .fin (if g + l < 1 / 100000000000000 then 0 else 100 * (g / (g + l))) := by
  unfold rsiVal
  have e0 : (fl 0 : XF K) = .fin 0 := by simp
  have e1 : (fl 100 : XF K) = .fin 100 := by simp
  have e2 : ((-1 / 100000000000000 : ℚ) : K) = -1 / 100000000000000 := by push_cast; rfl
  have e3 : ((1 / 100000000000000 : ℚ) : K) = 1 / 100000000000000 := by push_cast; rfl
  have h0 : (-1 / 100000000000000 : K) < g + l := by
    have : (-1 / 100000000000000 : K) < 0 := by norm_num
    linarith
  simp only [add_fin, lit_fin, e2, e3, lt_fin, h0, decide_true, Bool.true_and, e0, e1]
  by_cases h : g + l < 1 / 100000000000000
  · rw [if_pos h]; simp only [h, decide_true, Bool.not_true, Bool.false_eq_true, if_false]
  · have hne : g + l ≠ 0 := by
      have : (0 : K) < 1 / 100000000000000 := by norm_num
      intro h'; rw [h'] at h; exact h this
    rw [if_neg h]; simp only [h, decide_false, Bool.not_false, if_true, div_fin hne, mul_fin]

theorem gain_tab {n : Nat} (b : Nat → Bar K) {j : Nat} (h1 : 1 ≤ j) (hj : j < n) :
    gain (tab n b) j = max ((b j).c - (b (j - 1)).c) 0 := by
  rw [gain, tab_getElem?_lt hj, tab_getElem?_lt (by omega)]
theorem loss_tab {n : Nat} (b : Nat → Bar K) {j : Nat} (h1 : 1 ≤ j) (hj : j < n) :
    loss (tab n b) j = max ((b (j - 1)).c - (b j).c) 0 := by
  rw [loss, tab_getElem?_lt hj, tab_getElem?_lt (by omega)]

/-- C43, what `Rsi` computes: 0 before candle `p`, then `100 * G / (G + L)` with Wilder's averages `G`, `L` of
the rises and falls, or 0 where `G + L < 1e-14`. -/
theorem C43_rsi_exact {p : Nat} (hp : 2 ≤ p) {it : Item (XF K)} {bs : List (Bar K)} (hb : Holds it bs)
    {d : List (Rec (XF K))} (hd : (RSI p).data it = .ok d) {i : Nat} {r : Rec (XF K)} (hr : d[i]? = some r) :
    (i < p → r.value = .fin 0) ∧
    (p ≤ i → r.value = .fin (
      let G := wilderAvg p (gain bs) (i - p)
      let L := wilderAvg p (loss bs) (i - p)
      if G + L < 1 / 100000000000000 then 0 else 100 * (G / (G + L)))) := by
  obtain ⟨x, b, hx, hbs, hc⟩ := hb.cols
  obtain ⟨hi, -, rfl, -⟩ := at_index (b := b) (RSI.appends p).yields hx hd hr
  show (_ → rsiF _ _ _ = _) ∧ (_ → rsiF _ _ _ = _)
  rw [hc.cl, Int.toNat_natCast, rsiF]
  constructor
  · intro h; rw [if_pos (Or.inr h)]; simp
  · intro h
    have hg := fun m => wilderAvg_nonneg (p := p) (by omega)
      (g := fun j => max ((b j).c - (b (j - 1)).c) 0) (fun j => le_max_right _ _) m
    have hl := fun m => wilderAvg_nonneg (p := p) (by omega)
      (g := fun j => max ((b (j - 1)).c - (b j).c) 0) (fun j => le_max_right _ _) m
    rw [if_neg (by omega), rsiW_fin (by omega), rsiVal_fin (hg _) (hl _)]
    have e1 : wilderAvg p (gain bs) (i - p) = wilderAvg p (fun j => max ((b j).c - (b (j - 1)).c) 0) (i - p) :=
      wilderAvg_congr fun j h1 h2 => by rw [hbs]; exact gain_tab b h1 (by omega)
    have e2 : wilderAvg p (loss bs) (i - p) = wilderAvg p (fun j => max ((b (j - 1)).c - (b j).c) 0) (i - p) :=
      wilderAvg_congr fun j h1 h2 => by rw [hbs]; exact loss_tab b h1 (by omega)
    rw [e1, e2]

/-- C43: every value of `Rsi` is a number in `[0, 100]`, whatever the period. -/
theorem C43_rsi_range (p : Int) {it : Item (XF K)} {bs : List (Bar K)} (hb : Holds it bs)
    {d : List (Rec (XF K))} (hd : (RSI p).data it = .ok d) {r : Rec (XF K)} (hr : r ∈ d) :
    ∃ v, r.value = .fin v ∧ 0 ≤ v ∧ v ≤ 100 := by
  obtain ⟨i, hr⟩ := List.mem_iff_getElem?.mp hr
  by_cases hp : 2 ≤ p
  · obtain ⟨q, rfl⟩ : ∃ q : Nat, p = q := ⟨p.toNat, by omega⟩
    have h := C43_rsi_exact (by omega) hb hd hr
    rcases Nat.lt_or_ge i q with h1 | h1
    · exact ⟨0, h.1 h1, le_refl _, by norm_num⟩
    · refine ⟨_, h.2 h1, ?_⟩
      have hg := wilderAvg_nonneg (p := q) (by omega) (gain_nonneg bs) (i - q)
      have hl := wilderAvg_nonneg (p := q) (by omega) (loss_nonneg bs) (i - q)
      generalize wilderAvg q (gain bs) (i - q) = G at hg
      generalize wilderAvg q (loss bs) (i - q) = L at hl
      show 0 ≤ ite _ _ _ ∧ ite _ _ _ ≤ _
      split
      · exact ⟨le_refl _, by norm_num⟩
      · refine ⟨mul_nonneg (by norm_num) (div_nonneg hg (add_nonneg hg hl)), ?_⟩
        have : G / (G + L) ≤ 1 := div_le_one_of_le₀ (by linarith) (add_nonneg hg hl)
        linarith
  · obtain ⟨x, b, hx, hbs, hc⟩ := hb.cols
    obtain ⟨hi, -, rfl, -⟩ := at_index (b := b) (RSI.appends p).yields hx hd hr
    refine ⟨0, ?_, le_refl _, by norm_num⟩
    show rsiF _ _ _ = _
    rw [rsiF, if_pos (by omega)]; simp

/-- C43: at a candle `i >= p` up to which the close never fell, the value is 100, provided the average rise is not
below `1e-14`. Partial: the statement about a window fails, see `C43_window_refuted`. -/
theorem C43_rsi_no_losses_partial {p : Nat} (hp : 2 ≤ p) {it : Item (XF K)} {bs : List (Bar K)} (hb : Holds it bs)
    {d : List (Rec (XF K))} (hd : (RSI p).data it = .ok d) {i : Nat} (hi : p ≤ i) {r : Rec (XF K)}
    (hr : d[i]? = some r) (hup : ∀ j a b, j < i → bs[j]? = some a → bs[j + 1]? = some b → a.c ≤ b.c)
    (hG : 1 / 100000000000000 ≤ wilderAvg p (gain bs) (i - p)) : r.value = .fin 100 := by
  rw [(C43_rsi_exact hp hb hd hr).2 hi]
  have hL : wilderAvg p (loss bs) (i - p) = 0 := by
    rw [wilderAvg_congr (g' := fun _ => 0)]
    · generalize i - p = m
      induction m with
      | zero => simp [wilderAvg]
      | succ m ih => simp [wilderAvg, ih]
    · intro j h1 h2
      unfold loss
      split
      · next a b h3 h4 =>
        have := hup (j - 1) a b (by omega) h3 (by rwa [Nat.sub_add_cancel h1])
        exact max_eq_right (by linarith)
      · rfl
  have h0 : (0 : K) < 1 / 100000000000000 := by norm_num
  simp only [hL, add_zero]
  rw [if_neg (not_lt.mpr hG), div_self (ne_of_gt (lt_of_lt_of_le h0 hG)), mul_one]

/-- Bars with equal prices. -/
def flat (l : List ℚ) : List (Bar ℚ) := l.map fun c => ⟨c, c, c, c, 1⟩

/-- C43 refuted for a window: with period 2 the last three changes are rises, but the fall before them still
counts. -/
theorem C43_window_refuted : ∃ (d : List (Rec (XF ℚ))) (v : ℚ),
    (RSI 2).data (barItem (flat [2, 1, 2, 3, 4])) = .ok d ∧ d[4]? = some ⟨0, .fin v⟩ ∧ v < 100 := by
  obtain ⟨d, h, hd⟩ := okAnd_iff.mp (show okAnd ((RSI 2).data (barItem (flat [2, 1, 2, 3, 4])))
    (fun (d : List (Rec (XF ℚ))) => d[4]? = some ⟨0, .fin (700 / 8)⟩) = true by decide +kernel)
  exact ⟨d, _, h, by simpa using hd, by norm_num⟩

/-- The hypotheses of `C43_rsi_exact` and `C43_rsi_no_losses_partial` on a rising series. -/
example : Holds (barItem (flat [1, 2, 3])) (flat [1, 2, 3]) ∧ (∃ d, (RSI 2).data (barItem (flat [1, 2, 3])) = .ok d ∧
      d[2]? = some (⟨0, .fin 100⟩ : Rec (XF ℚ))) ∧
    (1 / 100000000000000 : ℚ) ≤ wilderAvg 2 (gain (flat [1, 2, 3])) 0 := by
  refine ⟨holds_barItem _, ?_, by decide +kernel⟩
  obtain ⟨d, h, hd⟩ := okAnd_iff.mp (show okAnd ((RSI 2).data (barItem (flat [1, 2, 3])))
    (fun (d : List (Rec (XF ℚ))) => d[2]? = some ⟨0, .fin 100⟩) = true by decide +kernel)
  exact ⟨d, h, by simpa using hd⟩

/-- C43, panics: `Rsi` panics exactly when the period is at least 2 and equal to the number of candles, whatever
the float values. -/
theorem C43_rsi_panics_iff (p : Int) (it : Item F) :
    (∃ e, (RSI p).data it = .error e) ↔ 2 ≤ p ∧ p = it.candles.length := by
  obtain ⟨x, hx⟩ := candles_tab it
  have h := (RSI.appends p).yields it _ x hx
  constructor
  · rintro ⟨e, he⟩
    by_contra hn
    have := h.1 (by unfold okRsi; omega)
    rw [he] at this; cases this
  · intro hn
    exact h.2 (by unfold okRsi; omega)

example : (RSI 3).data (barItem (flat [1, 2, 3])) = .error .index := by rfl

/-! ## C44 -/

theorem pct_range {l h c : K} (h1 : l ≤ c) (h2 : c ≤ h) :
    0 ≤ (c - l) / (h - l) * 100 ∧ (c - l) / (h - l) * 100 ≤ 100 := by
  have h3 : 0 ≤ (c - l) / (h - l) := div_nonneg (by linarith) (by linarith)
  have h4 : (c - l) / (h - l) ≤ 1 := div_le_one_of_le₀ (by linarith) (by linarith)
  constructor <;> linarith

theorem stochF_fin {p : Nat} (hp : 0 < p) (c h l : Nat → K) (i : Nat) :
    ∃ H L, IsGreatest {v | ∃ j, i + 1 ≤ j + p ∧ j ≤ i ∧ h j = v} H ∧
      IsLeast {v | ∃ j, i + 1 ≤ j + p ∧ j ≤ i ∧ l j = v} L ∧
      stochF p (finF c) (finF h) (finF l) i = .fin ((c i - L) / (H - L) * 100) := by
  obtain ⟨H, eH, hH⟩ := maxF_fin hp h i
  obtain ⟨L, eL, hL⟩ := minF_fin hp l i
  refine ⟨H, L, hH, hL, ?_⟩
  have e : (fl 100 : XF K) = .fin 100 := by simp
  rw [stochF, eH, eL, e]
  simp only [subF_fin, safeDiv_fin_eq, mul_fin]

theorem sum_window_range {p : Nat} (a : Nat → K) (i : Nat) :
    psum a (i + 1) - psum a (i + 1 - p) = ∑ j ∈ Finset.range (min p (i + 1)), a (i + 1 - p + j) := by
  have := psum_add a (i + 1 - p) (min p (i + 1))
  rw [show i + 1 - p + min p (i + 1) = i + 1 by omega] at this
  rw [this]; ring

/-- A window mean lies between bounds of the values. -/
theorem smaF_bounds {p : Nat} (hp : 0 < p) (a : Nat → K) (i : Nat) {lo hi : K}
    (h : ∀ j ≤ i, lo ≤ a j ∧ a j ≤ hi) :
    ∃ v, smaF p (finF a) i = .fin v ∧ lo ≤ v ∧ v ≤ hi := by
  rw [smaF_fin hp]
  refine ⟨_, rfl, ?_⟩
  rw [sum_window_range]
  have hm : (0 : K) < (min p (i + 1) : Nat) := by exact_mod_cast (by omega : 0 < min p (i + 1))
  have h1 := Finset.card_nsmul_le_sum (Finset.range (min p (i + 1))) (fun j => a (i + 1 - p + j)) lo
    (fun j hj => (h _ (by have := Finset.mem_range.mp hj; omega)).1)
  have h2 := Finset.sum_le_card_nsmul (Finset.range (min p (i + 1))) (fun j => a (i + 1 - p + j)) hi
    (fun j hj => (h _ (by have := Finset.mem_range.mp hj; omega)).2)
  rw [Finset.card_range, nsmul_eq_mul] at h1 h2
  rw [le_div_iff₀ hm, div_le_iff₀ hm]
  constructor <;> linarith [mul_comm lo (min p (i + 1) : Nat), mul_comm hi (min p (i + 1) : Nat)]

theorem IsLeast.le_at {p i : Nat} (hp : 0 < p) {l : Nat → K} {L : K}
    (h : IsLeast {v | ∃ j, i + 1 ≤ j + p ∧ j ≤ i ∧ l j = v} L) : L ≤ l i := h.2 ⟨i, by omega, le_refl _, rfl⟩
theorem IsGreatest.le_at {p i : Nat} (hp : 0 < p) {l : Nat → K} {L : K}
    (h : IsGreatest {v | ∃ j, i + 1 ≤ j + p ∧ j ≤ i ∧ l j = v} L) : l i ≤ L := h.2 ⟨i, by omega, le_refl _, rfl⟩

/-- C44, `ta.Stochastic`: for slices with `low <= close <= high` both lines are numbers in `[0, 100]`. -/
theorem C44_ta_stochastic (p : Nat) (hp : 1 ≤ p) (bs : List (Bar K)) (hw : ∀ b ∈ bs, b.l ≤ b.c ∧ b.c ≤ b.h) :
    ∃ k d : List K, Stochastic (fins (bs.map Bar.c)) (fins (bs.map Bar.h)) (fins (bs.map Bar.l)) p =
        .ok (fins k, fins d) ∧ k.length = bs.length ∧ d.length = bs.length ∧
      (∀ v ∈ k, 0 ≤ v ∧ v ≤ 100) ∧ (∀ v ∈ d, 0 ≤ v ∧ v ≤ 100) := by
  have : Inhabited (Bar K) := ⟨⟨0, 0, 0, 0, 0⟩⟩
  obtain ⟨n, b, rfl⟩ : ∃ n b, bs = tab n b := ⟨_, _, eq_tab bs⟩
  have hw' : ∀ i < n, (b i).l ≤ (b i).c ∧ (b i).c ≤ (b i).h := fun i hi => hw _ (mem_tab.mpr ⟨i, hi, rfl⟩)
  choose H L hH hL e using fun i => stochF_fin (p := p) hp (fun i => (b i).c) (fun i => (b i).h) (fun i => (b i).l) i
  have hk : stochF p (finF fun i => (b i).c) (finF fun i => (b i).h) (finF fun i => (b i).l) =
      finF fun i => ((b i).c - L i) / (H i - L i) * 100 := funext e
  have hr : ∀ i < n, 0 ≤ ((b i).c - L i) / (H i - L i) * 100 ∧ ((b i).c - L i) / (H i - L i) * 100 ≤ 100 :=
    fun i hi => pct_range ((IsLeast.le_at hp (hL i)).trans (hw' i hi).1)
      ((hw' i hi).2.trans (IsGreatest.le_at hp (hH i)))
  have hd : ∀ i, ∃ v, smaF 3 (finF fun i => ((b i).c - L i) / (H i - L i) * 100) i = .fin v ∧
      (i < n → 0 ≤ v ∧ v ≤ 100) := fun i => by
    by_cases hi : i < n
    · obtain ⟨v, h1, h2⟩ := smaF_bounds (p := 3) (by omega) _ i fun j hj => hr j (by omega)
      exact ⟨v, h1, fun _ => h2⟩
    · exact ⟨_, smaF_fin (by omega) _ _, fun h => absurd h hi⟩
  choose D hD1 hD2 using hd
  refine ⟨tab n fun i => ((b i).c - L i) / (H i - L i) * 100, tab n D, ?_, by simp, by simp, ?_, ?_⟩
  · rw [map_tab, map_tab, map_tab, fins_tab, fins_tab, fins_tab, Stochastic_tab p n hp]
    simp only [fins_tab]
    rw [hk, funext hD1]
  · intro v hv; obtain ⟨i, hi, rfl⟩ := mem_tab.mp hv; exact hr i hi
  · intro v hv; obtain ⟨i, hi, rfl⟩ := mem_tab.mp hv; exact hD2 i hi

/-- C44, what `StochasticOscillator` reports as K: the place of the close between the lowest low and the highest
high of the window, in percent, and 0 when the two are equal. -/
theorem C44_stochastic_exact {p : Nat} (hp : 1 ≤ p) {it : Item (XF K)} {bs : List (Bar K)} (hb : Holds it bs)
    {d : List (KD (XF K))} (hd : (Stoch p).data it = .ok d) {i : Nat} {r : KD (XF K)} {b : Bar K}
    (hr : d[i]? = some r) (hbi : bs[i]? = some b) :
    ∃ H L, IsGreatest {v | ∃ q ∈ window p i bs, q.h = v} H ∧ IsLeast {v | ∃ q ∈ window p i bs, q.l = v} L ∧
      r.k = .fin (if H = L then 0 else 100 * (b.c - L) / (H - L)) := by
  obtain ⟨x, b', hx, hbs, hc⟩ := hb.cols
  obtain ⟨hi, -, rfl, -⟩ := at_index (b := b') (Stoch.appends p).yields hx hd hr
  have hb' : b' i = b := by rw [hbs, tab_getElem?_lt hi] at hbi; exact Option.some.inj hbi
  obtain ⟨H, L, hH, hL, e⟩ := stochF_fin (p := p) hp (fun i => (b' i).c) (fun i => (b' i).h) (fun i => (b' i).l) i
  refine ⟨H, L, ?_, ?_, ?_⟩
  · rw [hbs]; exact isGreatest_window Bar.h b' hi hH
  · rw [hbs]; exact isLeast_window Bar.l b' hi hL
  · show stochF _ _ _ _ _ = _
    rw [hc.cl, hc.hi, hc.lo, Int.toNat_natCast, e, hb']
    congr 1
    split
    · next h => rw [h]; simp
    · ring

/-- C44: K and D of `StochasticOscillator` are numbers in `[0, 100]`. -/
theorem C44_stochastic_range {p : Nat} (hp : 1 ≤ p) {it : Item (XF K)} {bs : List (Bar K)} (hb : Holds it bs)
    (hw : ∀ b ∈ bs, b.l ≤ b.c ∧ b.c ≤ b.h) {d : List (KD (XF K))} (hd : (Stoch p).data it = .ok d)
    {r : KD (XF K)} (hr : r ∈ d) :
    ∃ k dd, r.k = .fin k ∧ r.d = .fin dd ∧ 0 ≤ k ∧ k ≤ 100 ∧ 0 ≤ dd ∧ dd ≤ 100 := by
  obtain ⟨i, hr⟩ := List.mem_iff_getElem?.mp hr
  obtain ⟨x, b, hx, hbs, hc⟩ := hb.cols
  obtain ⟨hi, -, rfl, -⟩ := at_index (b := b) (Stoch.appends p).yields hx hd hr
  have hw' : ∀ j ≤ i, (b j).l ≤ (b j).c ∧ (b j).c ≤ (b j).h := fun j hj =>
    hw _ (by rw [hbs]; exact mem_tab.mpr ⟨j, by omega, rfl⟩)
  choose H L hH hL e using fun i => stochF_fin (p := p) hp (fun i => (b i).c) (fun i => (b i).h) (fun i => (b i).l) i
  have hk : stochK (p : Int) x = finF fun i => ((b i).c - L i) / (H i - L i) * 100 := by
    funext j
    rw [stochK, hc.cl, hc.hi, hc.lo, Int.toNat_natCast, e]
  have hr : ∀ j ≤ i, 0 ≤ ((b j).c - L j) / (H j - L j) * 100 ∧ ((b j).c - L j) / (H j - L j) * 100 ≤ 100 :=
    fun j hj => pct_range ((IsLeast.le_at hp (hL j)).trans (hw' j hj).1)
      ((hw' j hj).2.trans (IsGreatest.le_at hp (hH j)))
  obtain ⟨v, h1, h2, h3⟩ := smaF_bounds (p := 3) (by omega) _ i hr
  exact ⟨_, v, by show stochK _ _ _ = _; rw [hk], by show smaF _ _ _ = _; rw [hk]; exact h1, (hr i (le_refl _)).1,
    (hr i (le_refl _)).2, h2, h3⟩

/-- C44: Williams %R is a number in `[-100, 0]` at every candle whose window has a non-zero range, namely
`-100 * (H - close) / (H - L)`; where the range is zero the value is not a number. -/
theorem C44_williams_range {p : Nat} (hp : 1 ≤ p) {it : Item (XF K)} {bs : List (Bar K)} (hb : Holds it bs)
    {d : List (Rec (XF K))} (hd : (Williams p).data it = .ok d) {i : Nat} {r : Rec (XF K)} {b : Bar K}
    (hr : d[i]? = some r) (hbi : bs[i]? = some b) (hw : b.l ≤ b.c ∧ b.c ≤ b.h) :
    ∃ H L, IsGreatest {v | ∃ q ∈ window p i bs, q.h = v} H ∧ IsLeast {v | ∃ q ∈ window p i bs, q.l = v} L ∧
      (H ≠ L → ∃ v, r.value = .fin v ∧ v = -100 * (H - b.c) / (H - L) ∧ -100 ≤ v ∧ v ≤ 0) ∧
      (H = L → r.value = .nan) := by
  obtain ⟨x, b', hx, hbs, hc⟩ := hb.cols
  obtain ⟨hi, -, rfl, -⟩ := at_index (b := b') (Williams.appends p).yields hx hd hr
  have hb' : b' i = b := by rw [hbs, tab_getElem?_lt hi] at hbi; exact Option.some.inj hbi
  obtain ⟨H, eH, hH⟩ := maxF_fin hp (fun j => (b' j).h) i
  obtain ⟨L, eL, hL⟩ := minF_fin hp (fun j => (b' j).l) i
  have h1 : b.c ≤ H := hw.2.trans (by rw [← hb']; exact IsGreatest.le_at hp hH)
  have h2 : L ≤ b.c := le_trans (by rw [← hb']; exact IsLeast.le_at hp hL) hw.1
  have e100 : (fl (-100) : XF K) = .fin (-100) := by simp
  have ev : (Williams.out (p : Int) x i).value = (XF.fin (H - b.c) /. .fin (H - L)) *. .fin (-100) := by
    show williamsF _ _ _ = _
    rw [williamsF, hc.cl, hc.hi, hc.lo, Int.toNat_natCast, eH, eL, e100, ← hb', ← sub_fin, ← sub_fin]
  refine ⟨H, L, by rw [hbs]; exact isGreatest_window Bar.h b' hi hH, by rw [hbs]; exact isLeast_window Bar.l b' hi hL,
    fun hne => ?_, fun he => ?_⟩
  · have hne' : H - L ≠ 0 := sub_ne_zero.mpr hne
    have hpos : 0 < H - L := lt_of_le_of_ne (by linarith) hne'.symm
    refine ⟨_, by rw [ev, div_fin hne', mul_fin], by ring, ?_⟩
    have a1 : 0 ≤ (H - b.c) / (H - L) := div_nonneg (by linarith) hpos.le
    have a2 : (H - b.c) / (H - L) ≤ 1 := div_le_one_of_le₀ (by linarith) hpos.le
    constructor <;> linarith
  · have : H - b.c = 0 := by linarith
    rw [ev, this, he, sub_self, div_fin_eq, if_pos rfl]
    simp [infSign]; rfl

/-- The hypotheses of the three theorems on a series of three bars. -/
example : ∃ bs : List (Bar ℚ), bs.length = 3 ∧ (∀ b ∈ bs, b.l ≤ b.c ∧ b.c ≤ b.h) ∧ Holds (barItem bs) bs ∧
    (Stoch 2).data (barItem bs) = .ok [⟨0, .fin 50, .fin 50⟩, ⟨0, .fin 75, .fin (125 / 2)⟩, ⟨0, .fin 0, .fin (125 / 3)⟩] ∧
    (Williams 2).data (barItem bs) = .ok [⟨0, .fin (-50)⟩, ⟨0, .fin (-25)⟩, ⟨0, .fin (-100)⟩] := by
  refine ⟨[⟨1, 3, 1, 2, 10⟩, ⟨2, 5, 2, 4, 20⟩, ⟨4, 4, 1, 1, 30⟩], rfl, ?_, holds_barItem _, ?_, ?_⟩
  · decide
  · decide +kernel
  · decide +kernel

/-- C44 for `StochRsi` (smoothing periods at least 1): both lines are numbers in `[0, 100]`. -/
theorem C44_stochRsi_range {k d q : Nat} (hk : 1 ≤ k) (hd' : 1 ≤ d) (hq : 1 ≤ q) (p : Int) {it : Item (XF K)}
    {bs : List (Bar K)} (hb : Holds it bs) {ds : List (KD (XF K))} (hd : (StochRSI k d p q).data it = .ok ds)
    {r : KD (XF K)} (hr : r ∈ ds) :
    ∃ u v, r.k = .fin u ∧ r.d = .fin v ∧ 0 ≤ u ∧ u ≤ 100 ∧ 0 ≤ v ∧ v ≤ 100 := by
  obtain ⟨i, hr⟩ := List.mem_iff_getElem?.mp hr
  obtain ⟨x, b, hx, hbs, hc⟩ := hb.cols
  obtain ⟨hi, -, rfl, -⟩ := at_index (b := b) (StochRSI.appends k d p q).yields hx hd hr
  obtain ⟨R, hR⟩ : ∃ R : Nat → K, rsiF p.toNat (Ind.cl x) = finF R := by
    have : ∀ j, ∃ v, rsiF p.toNat (Ind.cl x) j = .fin v := fun j => by
      rw [hc.cl, rsiF]
      split
      · exact ⟨0, by simp⟩
      · rw [rsiW_fin (by omega), rsiVal_fin (wilderAvg_nonneg (by omega) (fun j => le_max_right _ _) _)
          (wilderAvg_nonneg (by omega) (fun j => le_max_right _ _) _)]
        exact ⟨_, rfl⟩
    choose R hR using this
    exact ⟨R, funext hR⟩
  choose H L hH hL e using fun i => stochF_fin (p := q) hq R R R i
  have hs : stochRsiF p q x = finF fun i => (R i - L i) / (H i - L i) * 100 := by
    funext j
    rw [stochRsiF, hR, Int.toNat_natCast, e]
  have hrange : ∀ j, 0 ≤ (R j - L j) / (H j - L j) * 100 ∧ (R j - L j) / (H j - L j) * 100 ≤ 100 :=
    fun j => pct_range (IsLeast.le_at hq (hL j)) (IsGreatest.le_at hq (hH j))
  have hK : emaF (k : Int) (stochRsiF p q x) = finF (emaK k fun i => (R i - L i) / (H i - L i) * 100) := by
    funext j; rw [hs, emaF_fin]
  have bK := fun j => emaK_bounds hk (fun i => (R i - L i) / (H i - L i) * 100) 0 100 j fun m _ => hrange m
  have bD := emaK_bounds hd' (emaK k fun i => (R i - L i) / (H i - L i) * 100) 0 100 i fun m _ => bK m
  refine ⟨_, _, ?_, ?_, (bK i).1, (bK i).2, bD.1, bD.2⟩
  · show emaF _ _ _ = _; rw [hK]
  · show emaF _ _ _ = _; rw [hK, emaF_fin]

example : ∃ ds, (StochRSI 1 1 2 2).data (barItem (flat [1, 2, 1, 3])) = .ok ds ∧
    ds = [⟨0, .fin 0, .fin 0⟩, ⟨0, .fin 0, .fin 0⟩, ⟨0, .fin 100, .fin 100⟩, ⟨0, (.fin 100 : XF ℚ), .fin 100⟩] := by
  refine ⟨_, ?_, rfl⟩
  decide +kernel

/-! ## C45 -/

theorem lowF_fin (a : Nat → K) (lo c : Nat) :
    ∃ m, lowF (finF a) lo c = .fin m ∧ IsLeast {v | ∃ j, lo ≤ j ∧ j ≤ lo + c ∧ a j = v} m := by
  induction c with
  | zero =>
    refine ⟨a lo, rfl, ⟨lo, by omega, by omega, rfl⟩, ?_⟩
    rintro v ⟨j, h1, h2, rfl⟩
    rw [show j = lo by omega]
  | succ c ih =>
    obtain ⟨m, e, ⟨j, h1, h2, h3⟩, hm⟩ := ih
    rw [lowF, e, lt_fin]
    by_cases h : a (lo + (c + 1)) < m
    · refine ⟨_, by rw [decide_eq_true h, if_pos rfl], ⟨_, by omega, by omega, rfl⟩, ?_⟩
      rintro v ⟨k, k1, k2, rfl⟩
      rcases Nat.lt_or_ge k (lo + (c + 1)) with hk | hk
      · exact h.le.trans (hm ⟨k, k1, by omega, rfl⟩)
      · rw [show k = lo + (c + 1) by omega]
    · refine ⟨m, by rw [decide_eq_false h, if_neg (by decide)], ⟨j, h1, by omega, h3⟩, ?_⟩
      rintro v ⟨k, k1, k2, rfl⟩
      rcases Nat.lt_or_ge k (lo + (c + 1)) with hk | hk
      · exact hm ⟨k, k1, by omega, rfl⟩
      · rw [show k = lo + (c + 1) by omega]; exact not_lt.mp h

theorem highF_fin (a : Nat → K) (lo c : Nat) :
    ∃ m, highF (finF a) lo c = .fin m ∧ IsGreatest {v | ∃ j, lo ≤ j ∧ j ≤ lo + c ∧ a j = v} m := by
  induction c with
  | zero =>
    refine ⟨a lo, rfl, ⟨lo, by omega, by omega, rfl⟩, ?_⟩
    rintro v ⟨j, h1, h2, rfl⟩
    rw [show j = lo by omega]
  | succ c ih =>
    obtain ⟨m, e, ⟨j, h1, h2, h3⟩, hm⟩ := ih
    rw [highF, e, GoFloat.gt, lt_fin]
    by_cases h : m < a (lo + (c + 1))
    · refine ⟨_, by rw [decide_eq_true h, if_pos rfl], ⟨_, by omega, by omega, rfl⟩, ?_⟩
      rintro v ⟨k, k1, k2, rfl⟩
      rcases Nat.lt_or_ge k (lo + (c + 1)) with hk | hk
      · exact le_trans (hm ⟨k, k1, by omega, rfl⟩) h.le
      · rw [show k = lo + (c + 1) by omega]
    · refine ⟨m, by rw [decide_eq_false h, if_neg (by decide)], ⟨j, h1, by omega, h3⟩, ?_⟩
      rintro v ⟨k, k1, k2, rfl⟩
      rcases Nat.lt_or_ge k (lo + (c + 1)) with hk | hk
      · exact hm ⟨k, k1, by omega, rfl⟩
      · rw [show k = lo + (c + 1) by omega]; exact not_lt.mp h

theorem win_set {p i : Nat} (hp : 1 ≤ p) (hi : p ≤ i + 1) (a : Nat → K) :
    {v | ∃ j, i + 1 - p ≤ j ∧ j ≤ i + 1 - p + (p - 1) ∧ a j = v} = {v | ∃ j, i + 1 ≤ j + p ∧ j ≤ i ∧ a j = v} := by
  ext v
  constructor
  · rintro ⟨j, h1, h2, h3⟩; exact ⟨j, by omega, by omega, h3⟩
  · rintro ⟨j, h1, h2, h3⟩; exact ⟨j, by omega, by omega, h3⟩

theorem rsvF_fin {p : Nat} (hp : 1 ≤ p) {n : Nat} {x : Nat → Candle (XF K)} {b : Nat → Bar K} (hc : Cols n x b) {i : Nat}
    (hi : p ≤ i + 1) :
    ∃ H L, IsGreatest {v | ∃ j, i + 1 ≤ j + p ∧ j ≤ i ∧ (b j).h = v} H ∧
      IsLeast {v | ∃ j, i + 1 ≤ j + p ∧ j ≤ i ∧ (b j).l = v} L ∧
      rsvF p x i = .fin (if H - L < 1 / 1000000 then 100 else (((b i).c - L) / (H - L)) * 100) := by
  obtain ⟨H, eH, hH⟩ := highF_fin (fun j => (b j).h) (i + 1 - p) (p - 1)
  obtain ⟨L, eL, hL⟩ := lowF_fin (fun j => (b j).l) (i + 1 - p) (p - 1)
  rw [win_set hp hi] at hH hL
  refine ⟨H, L, hH, hL, ?_⟩
  have e1 : (fl 100 : XF K) = .fin 100 := by simp
  have e2 : ((1 / 1000000 : ℚ) : K) = 1 / 1000000 := by push_cast; rfl
  have hf : kdjFull p i = true := by unfold kdjFull; simp; omega
  rw [rsvF, hf, if_pos rfl, hc.hi, hc.lo, hc.cl, Int.toNat_natCast, eH, eL]
  simp only [sub_fin, lit_fin, e2, lt_fin, e1]
  by_cases h : H - L < 1 / 1000000
  · rw [if_pos h]; simp only [h, decide_true, if_true]
  · have hne : H - L ≠ 0 := by
      intro h0; rw [h0] at h; exact h (by norm_num)
    rw [if_neg h]
    simp only [h, decide_false, Bool.false_eq_true, if_false, div_fin hne, mul_fin]

theorem kdj_state {p : Nat} (hp : 1 ≤ p) {n : Nat} {x : Nat → Candle (XF K)} {b : Nat → Bar K} (hc : Cols n x b) (i : Nat)
    (hw : ∀ j ≤ i, (b j).l ≤ (b j).c ∧ (b j).c ≤ (b j).h) :
    ∃ r k d, rsvF p x i = .fin r ∧ kF p x i = .fin k ∧ dF p x i = .fin d ∧
      (0 ≤ r ∧ r ≤ 100) ∧ (0 ≤ k ∧ k ≤ 100) ∧ (0 ≤ d ∧ d ≤ 100) := by
  have e50 : (fl 50 : XF K) = .fin 50 := by simp
  have e23 : (twoThirds : XF K) = .fin (2 / 3) := by
    rw [twoThirds, lit_fin]; push_cast; rfl
  have e13 : (oneThird : XF K) = .fin (1 / 3) := by
    rw [oneThird, lit_fin]; push_cast; rfl
  have hrsv : ∀ j ≤ i, ∃ r, rsvF p x j = .fin r ∧ 0 ≤ r ∧ r ≤ 100 := fun j hj => by
    by_cases hf : p ≤ j + 1
    · obtain ⟨H, L, hH, hL, e⟩ := rsvF_fin hp hc hf
      refine ⟨_, e, ?_⟩
      split
      · exact ⟨by norm_num, le_refl _⟩
      · exact pct_range ((IsLeast.le_at hp hL).trans (hw j hj).1) ((hw j hj).2.trans (IsGreatest.le_at hp hH))
    · have hf' : kdjFull p j = false := by unfold kdjFull; simp; omega
      exact ⟨0, by rw [rsvF, hf']; simp, le_refl _, by norm_num⟩
  induction i with
  | zero =>
    obtain ⟨r, h1, h2⟩ := hrsv 0 (le_refl _)
    exact ⟨r, 50, 50, h1, e50, e50, h2, ⟨by norm_num, by norm_num⟩, ⟨by norm_num, by norm_num⟩⟩
  | succ i ih =>
    obtain ⟨r, h1, h2⟩ := hrsv (i + 1) (le_refl _)
    obtain ⟨_, k, d, -, hk, hd, -, bk, bd⟩ := ih (fun j hj => hw j (by omega)) fun j hj => hrsv j (by omega)
    by_cases hf : kdjFull p (i + 1) = true
    · have ek : kF p x (i + 1) = .fin (2 / 3 * k + 1 / 3 * r) := by
        rw [kF, if_pos hf, hk, h1, e23, e13, mul_fin, mul_fin, add_fin]
      refine ⟨r, 2 / 3 * k + 1 / 3 * r, 2 / 3 * d + 1 / 3 * (2 / 3 * k + 1 / 3 * r), h1, ek, ?_, h2, ?_, ?_⟩
      · rw [dF, if_pos hf, hd, ek, e23, e13, mul_fin, mul_fin, add_fin]
      · constructor <;> linarith
      · constructor <;> linarith
    · refine ⟨r, 50, 50, h1, ?_, ?_, h2, ⟨by norm_num, by norm_num⟩, ⟨by norm_num, by norm_num⟩⟩
      · rw [kF, if_neg hf, e50]
      · rw [dF, if_neg hf, e50]

/-- C45: for candles with `low <= close <= high`, RSV, K and D are numbers in `[0, 100]`, J is `3K - 2D` and in
`[-200, 300]`. -/
theorem C45_kdj_range {p : Nat} (hp : 1 ≤ p) {it : Item (XF K)} {bs : List (Bar K)} (hb : Holds it bs)
    (hw : ∀ b ∈ bs, b.l ≤ b.c ∧ b.c ≤ b.h) {ds : List (KDJ.Data (XF K))} (hd : (KDJ p).data it = .ok ds)
    {q : KDJ.Data (XF K)} (hq : q ∈ ds) :
    ∃ r k d, q.rsv = .fin r ∧ q.k = .fin k ∧ q.d = .fin d ∧ q.j = .fin (3 * k - 2 * d) ∧
      (0 ≤ r ∧ r ≤ 100) ∧ (0 ≤ k ∧ k ≤ 100) ∧ (0 ≤ d ∧ d ≤ 100) ∧ -200 ≤ 3 * k - 2 * d ∧ 3 * k - 2 * d ≤ 300 := by
  obtain ⟨i, hr⟩ := List.mem_iff_getElem?.mp hq
  obtain ⟨x, b, hx, hbs, hc⟩ := hb.cols
  obtain ⟨hi, -, rfl, -⟩ := at_index (b := b) (KDJ.makes p).yields hx hd hr
  obtain ⟨r, k, d, h1, h2, h3, b1, b2, b3⟩ := kdj_state hp hc i fun j hj =>
    hw _ (by rw [hbs]; exact mem_tab.mpr ⟨j, by omega, rfl⟩)
  refine ⟨r, k, d, h1, h2, h3, ?_, b1, b2, b3, by linarith, by linarith⟩
  show fl 3 *. kF _ _ _ -. fl 2 *. dF _ _ _ = _
  rw [h2, h3]; simp

/-- C45: what the lines are. Before the window is full RSV is 0 and K, D are 50; afterwards RSV is the place of
the close in the range of the window in percent (100 when the range is below `1e-6`), and K, D move by one third
towards RSV and K. -/
theorem C45_kdj_exact {p : Nat} (hp : 1 ≤ p) {it : Item (XF K)} {bs : List (Bar K)} (hb : Holds it bs)
    {ds : List (KDJ.Data (XF K))} (hd : (KDJ p).data it = .ok ds) {i : Nat} {q : KDJ.Data (XF K)} {b : Bar K}
    (hq : ds[i]? = some q) (hbi : bs[i]? = some b) :
    (i + 1 < p → q.rsv = .fin 0 ∧ q.k = .fin 50 ∧ q.d = .fin 50) ∧
    (p ≤ i + 1 → ∃ H L, IsGreatest {v | ∃ q ∈ window p i bs, q.h = v} H ∧
      IsLeast {v | ∃ q ∈ window p i bs, q.l = v} L ∧
      q.rsv = .fin (if H - L < 1 / 1000000 then 100 else (b.c - L) / (H - L) * 100)) ∧
    (p ≤ i + 1 → ∀ q', 1 ≤ i → ds[i - 1]? = some q' → ∀ r k d, q.rsv = .fin r → q'.k = .fin k → q'.d = .fin d →
      q.k = .fin (2 / 3 * k + 1 / 3 * r) ∧ q.d = .fin (2 / 3 * d + 1 / 3 * (2 / 3 * k + 1 / 3 * r))) := by
  obtain ⟨x, b', hx, hbs, hc⟩ := hb.cols
  obtain ⟨hi, -, rfl, -⟩ := at_index (b := b') (KDJ.makes p).yields hx hd hq
  have hb' : b' i = b := by rw [hbs, tab_getElem?_lt hi] at hbi; exact Option.some.inj hbi
  have e50 : (fl 50 : XF K) = .fin 50 := by simp
  refine ⟨fun h => ?_, fun h => ?_, fun h q' h1 hq' r k d hr hk hd' => ?_⟩
  · have hf : kdjFull p i = false := by unfold kdjFull; simp; omega
    refine ⟨?_, ?_, ?_⟩
    · show rsvF _ _ _ = _; rw [rsvF, hf]; simp
    · show kF _ _ _ = _
      cases i with
      | zero => exact e50
      | succ i => rw [kF, hf, if_neg (by decide), e50]
    · show dF _ _ _ = _
      cases i with
      | zero => exact e50
      | succ i => rw [dF, hf, if_neg (by decide), e50]
  · obtain ⟨H, L, hH, hL, e⟩ := rsvF_fin hp hc h
    refine ⟨H, L, by rw [hbs]; exact isGreatest_window Bar.h b' hi hH,
      by rw [hbs]; exact isLeast_window Bar.l b' hi hL, ?_⟩
    show rsvF _ _ _ = _
    rw [e, hb']
  · obtain ⟨i, rfl⟩ : ∃ m, i = m + 1 := ⟨i - 1, by omega⟩
    obtain ⟨-, -, rfl, -⟩ := at_index (b := b') (KDJ.makes p).yields hx hd hq'
    have hf : kdjFull p (i + 1) = true := by unfold kdjFull; simp; omega
    have e23 : (twoThirds : XF K) = .fin (2 / 3) := by
      rw [twoThirds, lit_fin]; push_cast; rfl
    have e13 : (oneThird : XF K) = .fin (1 / 3) := by
      rw [oneThird, lit_fin]; push_cast; rfl
    have hr : rsvF (p : Int) x (i + 1) = .fin r := hr
    have hk : kF (p : Int) x i = .fin k := hk
    have hd' : dF (p : Int) x i = .fin d := hd'
    have ek : kF p x (i + 1) = .fin (2 / 3 * k + 1 / 3 * r) := by
      rw [kF, if_pos hf, hk, hr, e23, e13, mul_fin, mul_fin, add_fin]
    refine ⟨ek, ?_⟩
    show dF _ _ _ = _
    rw [dF, if_pos hf, hd', ek, e23, e13, mul_fin, mul_fin, add_fin]

/-- Both C45 theorems apply to this series; the second candle has a full window. -/
example : ∃ (bs : List (Bar ℚ)) (ds : List (KDJ.Data (XF ℚ))), bs.length = 2 ∧ (∀ b ∈ bs, b.l ≤ b.c ∧ b.c ≤ b.h) ∧
    Holds (barItem bs) bs ∧ (KDJ 2).data (barItem bs) = .ok ds ∧
    ds = [⟨0, .fin 0, .fin 50, .fin 50, .fin 50⟩, ⟨0, .fin 75, .fin (175 / 3), .fin (475 / 9), .fin (625 / 9)⟩] := by
  refine ⟨[⟨1, 3, 1, 2, 10⟩, ⟨2, 5, 2, 4, 20⟩], _, rfl, ?_, holds_barItem _, ?_, rfl⟩
  · decide
  · decide +kernel

/-- C45, panics: `Kdj` panics exactly for period 1 on a non-empty series, whatever the float values. -/
theorem C45_kdj_panics_iff (p : Int) (it : Item F) :
    (∃ e, (KDJ p).data it = .error e) ↔ p = 1 ∧ it.candles ≠ [] := by
  obtain ⟨x, hx⟩ := candles_tab it
  have h := (KDJ.makes p).yields it _ x hx
  have hl : it.candles ≠ [] ↔ it.candles.length ≠ 0 := not_congr List.length_eq_zero_iff.symm
  rw [hl]
  constructor
  · rintro ⟨e, he⟩
    by_contra hn
    have := h.1 (by unfold okKdj; omega)
    rw [he] at this; cases this
  · intro hn
    exact h.2 (by unfold okKdj; omega)

example : (KDJ 1).data (barItem (flat [1, 2])) = .error .index := by rfl

end Verif.Props
