import Verif.Props.Percent
import Verif.Go.Real

/-!
# Volume indicators and channels (C46 - C50, C59, C61, C62)
-/

set_option linter.unusedSectionVars false

namespace Verif.Props
open Verif Verif.Klines Verif.Ta Verif.Ind GoFloat XF

variable {F : Type} [GoFloat F] {K : Type} [Field K] [LinearOrder K] [IsStrictOrderedRing K]

/-- Sum of `g` over the last `p` bars up to bar `i`. -/
def winSum (p i : Nat) (g : Nat → K) : K := ∑ j ∈ Finset.Ico (i + 1 - p) (i + 1), g j

theorem runSum_winSum (p : Nat) (a : Nat → K) (i : Nat) : runSum p (finF a) (i + 1) = .fin (winSum p i a) := by
  rw [runSum_fin, winSum, Finset.sum_Ico_eq_sub _ (by omega)]
  rfl

theorem winSum_congr {p i : Nat} {g g' : Nat → K} (h : ∀ j ≤ i, g j = g' j) : winSum p i g = winSum p i g' :=
  Finset.sum_congr rfl fun j hj => h j (by have := Finset.mem_Ico.mp hj; omega)

theorem winSum_nonneg {p i : Nat} {g : Nat → K} (h : ∀ j ≤ i, 0 ≤ g j) : 0 ≤ winSum p i g :=
  Finset.sum_nonneg fun j hj => h j (by have := Finset.mem_Ico.mp hj; omega)

/-- A weighted mean lies between bounds of the values. -/
theorem weighted_bounds {p i : Nat} {a w : Nat → K} {lo hi : K} (hw : ∀ j ≤ i, 0 ≤ w j)
    (ha : ∀ j, i + 1 ≤ j + p → j ≤ i → lo ≤ a j ∧ a j ≤ hi) (hpos : 0 < winSum p i w) :
    lo ≤ winSum p i (fun j => a j * w j) / winSum p i w ∧ winSum p i (fun j => a j * w j) / winSum p i w ≤ hi := by
  have h1 : lo * winSum p i w ≤ winSum p i fun j => a j * w j := by
    rw [winSum, Finset.mul_sum]
    exact Finset.sum_le_sum fun j hj => by
      have := Finset.mem_Ico.mp hj
      exact mul_le_mul_of_nonneg_right (ha j (by omega) (by omega)).1 (hw j (by omega))
  have h2 : (winSum p i fun j => a j * w j) ≤ hi * winSum p i w := by
    rw [winSum, winSum, Finset.mul_sum]
    exact Finset.sum_le_sum fun j hj => by
      have := Finset.mem_Ico.mp hj
      exact mul_le_mul_of_nonneg_right (ha j (by omega) (by omega)).2 (hw j (by omega))
  exact ⟨(le_div_iff₀ hpos).mpr h1, (div_le_iff₀ hpos).mpr h2⟩

/-- A number of bar `j`, 0 outside the list. -/
def col (f : Bar K → K) (bs : List (Bar K)) (j : Nat) : K := (bs[j]?.map f).getD 0

theorem col_tab (f : Bar K → K) {n : Nat} (b : Nat → Bar K) {j : Nat} (hj : j < n) : col f (tab n b) j = f (b j) := by
  rw [col, tab_getElem?_lt hj]; rfl

/-! ## C47 -/

/-- C47, Vwma: the sum of close times volume over the window divided by the sum of volume, 0 when that is 0; with
non-negative volumes of positive sum it lies between any bounds of the closes of the window. -/
theorem C47_vwma {p : Nat} {it : Item (XF K)} {bs : List (Bar K)} (hb : Holds it bs)
    {d : List (Rec (XF K))} (hd : (VWMA p).data it = .ok d) {i : Nat} {r : Rec (XF K)} (hr : d[i]? = some r) :
    let V := winSum p i (col Bar.v bs)
    let w := if V = 0 then 0 else winSum p i (col (fun b => b.c * b.v) bs) / V
    r.value = .fin w ∧
    ((∀ b ∈ bs, 0 ≤ b.v) → 0 < V → ∀ lo hi, (∀ b ∈ window p i bs, lo ≤ b.c ∧ b.c ≤ hi) → lo ≤ w ∧ w ≤ hi) := by
  intro V w
  obtain ⟨x, b, hx, hbs, hc⟩ := hb.cols
  obtain ⟨hi, -, rfl, -⟩ := at_index (b := b) (VWMA.appends p).yields hx hd hr
  have eV : V = winSum p i fun j => (b j).v :=
    winSum_congr fun j hj => by rw [hbs]; exact col_tab _ b (by omega)
  have eC : winSum p i (col (fun b => b.c * b.v) bs) = winSum p i fun j => (b j).c * (b j).v :=
    winSum_congr fun j hj => by rw [hbs]; exact col_tab _ b (by omega)
  have ew : w = winSum p i (fun j => (b j).c * (b j).v) / V := by
    show ite _ _ _ = _
    rw [eC]
    split
    · next h => rw [h, div_zero]
    · rfl
  refine ⟨?_, fun hv hV lo hi' hlo => ?_⟩
  · show safeDiv _ _ = _
    have e1 : (fun j => Ind.cl x j *. Ind.vo x j) = finF fun j => (b j).c * (b j).v := by rw [hc.cl, hc.vo]; rfl
    rw [e1, hc.vo, Int.toNat_natCast, runSum_winSum, runSum_winSum, safeDiv_fin_eq, ew, eV]
  · rw [ew, eV]
    rw [eV] at hV
    refine weighted_bounds (fun j hj => hv _ (by rw [hbs]; exact mem_tab.mpr ⟨j, by omega, rfl⟩)) (fun j h1 h2 =>
      hlo _ (mem_window.mpr ⟨j, h1, h2, by rw [hbs]; exact tab_getElem?_lt (by omega)⟩)) hV

theorem mult_range {h l c : K} (h1 : l ≤ c) (h2 : c ≤ h) :
    -1 ≤ ((c - l) - (h - c)) / (h - l) ∧ ((c - l) - (h - c)) / (h - l) ≤ 1 := by
  rcases (sub_nonneg.mpr (h1.trans h2)).eq_or_lt with h3 | h3
  · rw [← h3, div_zero]; constructor <;> linarith
  · rw [le_div_iff₀ h3, div_le_iff₀ h3]; constructor <;> linarith

/-- C47, Chaikin money flow: for candles with `low <= close <= high` and non-negative volume every value is a number
in `[-1, 1]`, namely the volume-weighted mean of `((c-l)-(h-c))/(h-l)` over the window (0 without volume; a candle
with `h = l` counts 0). -/
theorem C47_cmf {p : Nat} {it : Item (XF K)} {bs : List (Bar K)} (hb : Holds it bs)
    {d : List (Rec (XF K))} (hd : (CMF p).data it = .ok d) {i : Nat} {r : Rec (XF K)} (hr : d[i]? = some r) :
    let V := winSum p i (col Bar.v bs)
    let m := fun b : Bar K => if b.h = b.l then 0 else ((b.c - b.l) - (b.h - b.c)) / (b.h - b.l)
    let w := if V = 0 then 0 else winSum p i (col (fun b => m b * b.v) bs) / V
    r.value = .fin w ∧ ((∀ b ∈ bs, 0 ≤ b.v ∧ b.l ≤ b.c ∧ b.c ≤ b.h) → -1 ≤ w ∧ w ≤ 1) := by
  intro V m w
  obtain ⟨x, b, hx, hbs, hc⟩ := hb.cols
  obtain ⟨hi, -, rfl, -⟩ := at_index (b := b) (CMF.appends p).yields hx hd hr
  have em : ∀ b : Bar K, m b = ((b.c - b.l) - (b.h - b.c)) / (b.h - b.l) := fun b => by
    show ite _ _ _ = _
    split
    · next h => rw [h, sub_self b.l, div_zero]
    · rfl
  have eV : V = winSum p i fun j => (b j).v :=
    winSum_congr fun j hj => by rw [hbs]; exact col_tab _ b (by omega)
  have eC : winSum p i (col (fun b => m b * b.v) bs) = winSum p i fun j => m (b j) * (b j).v :=
    winSum_congr fun j hj => by rw [hbs]; exact col_tab _ b (by omega)
  have ew : w = winSum p i (fun j => m (b j) * (b j).v) / V := by
    show ite _ _ _ = _
    rw [eC]
    split
    · next h => rw [h, div_zero]
    · rfl
  refine ⟨?_, fun hv => ?_⟩
  · show safeDiv _ _ = _
    have e1 : mfv x = finF fun j => m (b j) * (b j).v := by
      funext j
      rw [mfv, hc.cl, hc.vo, hc.hi, hc.lo]
      simp only [subF_fin, safeDiv_fin_eq, mul_fin, em]
    rw [e1, hc.vo, Int.toNat_natCast, runSum_winSum, runSum_winSum, safeDiv_fin_eq, ew, eV]
  · have hv' : ∀ j ≤ i, 0 ≤ (b j).v ∧ (b j).l ≤ (b j).c ∧ (b j).c ≤ (b j).h := fun j hj =>
      hv _ (by rw [hbs]; exact mem_tab.mpr ⟨j, by omega, rfl⟩)
    rcases (show 0 ≤ V by rw [eV]; exact winSum_nonneg fun j hj => (hv' j hj).1).eq_or_lt with h0 | h0
    · show -1 ≤ ite _ _ _ ∧ ite _ _ _ ≤ _
      rw [if_pos h0.symm]; constructor <;> linarith
    · rw [ew, eV]
      rw [eV] at h0
      exact weighted_bounds (fun j hj => (hv' j hj).1) (fun j _ h2 => by
        rw [em]; exact mult_range (hv' j h2).2.1 (hv' j h2).2.2) h0

/-- Three bars for the examples. -/
def threeBars : List (Bar ℚ) := [⟨1, 3, 1, 2, 10⟩, ⟨2, 5, 2, 4, 20⟩, ⟨4, 4, 1, 1, 30⟩]

example : Holds (barItem threeBars) threeBars ∧ (∀ b ∈ threeBars, 0 ≤ b.v ∧ b.l ≤ b.c ∧ b.c ≤ b.h) ∧
    (VWMA 2).data (barItem threeBars) = .ok [⟨0, .fin 2⟩, ⟨0, .fin (10 / 3)⟩, ⟨0, .fin (11 / 5)⟩] ∧
    (CMF 2).data (barItem threeBars) = .ok [⟨0, .fin 0⟩, ⟨0, .fin (2 / 9)⟩, ⟨0, .fin (-7 / 15)⟩] ∧
    0 < winSum 2 2 (col Bar.v threeBars) := by
  refine ⟨holds_barItem _, by decide, by decide +kernel, by decide +kernel, by decide +kernel⟩

/-! ## C46 -/

/-- Money flow of a bar. -/
def money (b : Bar K) : K := (b.h + b.l + b.c) / 3 * b.v

/-- Money flow of bar `j` when it is at least that of the bar before (for the first bar: at least 0). -/
def posFlow (bs : List (Bar K)) (j : Nat) : K :=
  if (if j = 0 then 0 else col money bs (j - 1)) ≤ col money bs j then col money bs j else 0
/-- Money flow of bar `j` when it is less than that of the bar before. -/
def negFlow (bs : List (Bar K)) (j : Nat) : K :=
  if (if j = 0 then 0 else col money bs (j - 1)) ≤ col money bs j then 0 else col money bs j

theorem pow_neg_one {a : ℝ} (h : 1 ≤ a) : GoMath.pow (XF.fin a) (.fin (-1)) = .fin (1 / a) := by
  show powR _ _ = _
  unfold powR
  by_cases h1 : a = 1
  · simp [h1]
  · rw [if_neg (by simp [h1])]
    have h0 : a ≠ 0 := by linarith
    simp only [h0, if_false]
    rw [if_neg (by rintro ⟨h', _⟩; linarith)]
    congr 1
    rw [Real.rpow_neg_one, one_div]

/-- C46: for non-negative prices and volumes every value of `MoneyFlowIndex` is a number in `[0, 100]`: with `P` and
`N` the sums over the window of the money flow of candles where it did not fall and where it fell, it is
`100 - 100 / (1 + P / N)`. Partial: without any negative flow (`N = 0`) the value is 0, not 100. -/
theorem C46_mfi_partial {p : Nat} {it : Item (XF ℝ)} {bs : List (Bar ℝ)} (hb : Holds it bs)
    (hw : ∀ b ∈ bs, 0 ≤ b.h ∧ 0 ≤ b.l ∧ 0 ≤ b.c ∧ 0 ≤ b.v)
    {d : List (Rec (XF ℝ))} (hd : (MFI p).data it = .ok d) {i : Nat} {r : Rec (XF ℝ)} (hr : d[i]? = some r) :
    let P := winSum p i (posFlow bs)
    let N := winSum p i (negFlow bs)
    ∃ v, r.value = .fin v ∧ 0 ≤ v ∧ v ≤ 100 ∧ (N ≠ 0 → v = 100 - 100 / (1 + P / N)) ∧ (N = 0 → v = 0) := by
  intro P N
  obtain ⟨x, b, hx, hbs, hc⟩ := hb.cols
  obtain ⟨hi, -, rfl, -⟩ := at_index (b := b) (MFI.appends p).yields hx hd hr
  have hm : ∀ j ≤ i, 0 ≤ money (b j) := fun j hj => by
    obtain ⟨h1, h2, h3, h4⟩ := hw (b j) (by rw [hbs]; exact mem_tab.mpr ⟨j, by omega, rfl⟩)
    exact mul_nonneg (div_nonneg (by linarith) (by norm_num)) h4
  have hcol : ∀ j ≤ i, col money bs j = money (b j) := fun j hj => by rw [hbs]; exact col_tab _ b (by omega)
  have e0 : (fl 0 : XF ℝ) = .fin 0 := by simp
  have e1 : (fl 1 : XF ℝ) = .fin 1 := by simp
  have em1 : (fl (-1) : XF ℝ) = .fin (-1) := by simp
  have e3 : (fl 3 : XF ℝ) = .fin 3 := by simp
  have eraw : rawF x = finF fun j => money (b j) := by
    funext j
    rw [rawF, hc.cl, hc.vo, hc.hi, hc.lo, e3]
    simp only [add_fin, div_fin (three_ne_zero' ℝ), mul_fin]
    rfl
  let up : Nat → Prop := fun j => (if j = 0 then 0 else money (b (j - 1))) ≤ money (b j)
  have eflow : flowF x = finF fun j => if up j then money (b j) else - money (b j) := by
    funext j
    rw [flowF, eraw, shiftF, e0, em1, e1]
    have es : (if j < 1 then XF.fin 0 else finF (fun j => money (b j)) (j - 1)) =
        .fin (if j = 0 then 0 else money (b (j - 1))) := by
      rcases Nat.eq_zero_or_pos j with h | h
      · simp [h]
      · rw [if_neg (by omega), if_neg (by omega)]
    rw [es, subF_fin, GoFloat.ge, le_fin]
    by_cases h : up j
    · have : 0 ≤ money (b j) - (if j = 0 then 0 else money (b (j - 1))) := sub_nonneg.mpr h
      simp [this, h]
    · have : ¬ 0 ≤ money (b j) - (if j = 0 then 0 else money (b (j - 1))) := fun h' => h (sub_nonneg.mp h')
      simp only [this, decide_false, Bool.false_eq_true, if_false, mul_fin, neg_one_mul]
      exact congrArg XF.fin (if_neg h).symm
  have epos : (fun j => if flowF x j >. fl 0 then flowF x j else fl 0) =
      finF fun j => if 0 < (if up j then money (b j) else - money (b j)) then
        (if up j then money (b j) else - money (b j)) else 0 := by
    funext j
    rw [eflow, e0, GoFloat.gt, lt_fin]
    by_cases h : 0 < (if up j then money (b j) else - money (b j)) <;> simp [h]
  have eneg : (fun j => (if flowF x j <. fl 0 then flowF x j else fl 0) *. fl (-1)) =
      finF fun j => - if (if up j then money (b j) else - money (b j)) < 0 then
        (if up j then money (b j) else - money (b j)) else 0 := by
    funext j
    rw [eflow, e0, em1, lt_fin]
    by_cases h : (if up j then money (b j) else - money (b j)) < 0 <;> simp [h]
  have eP : winSum p i (fun j => if 0 < (if up j then money (b j) else - money (b j)) then
        (if up j then money (b j) else - money (b j)) else 0) = P := by
    refine winSum_congr fun j hj => ?_
    have hpf : posFlow bs j = if up j then money (b j) else 0 := by
      rw [posFlow, hcol j hj, hcol (j - 1) (by omega)]
    have := hm j hj
    rw [hpf]
    by_cases h : up j
    · simp only [h, if_true]
      split
      · rfl
      · linarith
    · simp only [h, if_false]
      rw [if_neg (by linarith)]
  have eN : winSum p i (fun j => - if (if up j then money (b j) else - money (b j)) < 0 then
        (if up j then money (b j) else - money (b j)) else 0) = N := by
    refine winSum_congr fun j hj => ?_
    have hnf : negFlow bs j = if up j then 0 else money (b j) := by
      rw [negFlow, hcol j hj, hcol (j - 1) (by omega)]
    have := hm j hj
    rw [hnf]
    by_cases h : up j
    · simp only [h, if_true]
      rw [if_neg (by linarith), neg_zero]
    · simp only [h, if_false]
      split
      · rw [neg_neg]
      · linarith
  have hP : 0 ≤ P := winSum_nonneg fun j hj => by
    have := hm j hj
    rw [posFlow, hcol j hj]
    exact ite_nonneg this (le_refl _)
  have hN : 0 ≤ N := winSum_nonneg fun j hj => by
    have := hm j hj
    rw [negFlow, hcol j hj]
    exact ite_nonneg (le_refl _) this
  have hq : 0 ≤ P / N := div_nonneg hP hN
  have ev : mfiF p x i = .fin (100 - 100 / (1 + P / N)) := by
    have e100 : (fl 100 : XF ℝ) = .fin 100 := by simp
    have em100 : (fl (-100) : XF ℝ) = .fin (-100) := by simp
    rw [mfiF, epos, eneg, runSum_winSum, runSum_winSum, eP, eN, safeDiv_fin_eq, e1, em1, add_fin,
      pow_neg_one (by linarith), em100, e100, mul_fin, add_fin]
    congr 1
    rw [add_comm (P / N)]; ring
  refine ⟨_, ev, ?_, ?_, fun _ => rfl, fun h => ?_⟩
  · have : 100 / (1 + P / N) ≤ 100 := div_le_self (by norm_num) (by linarith)
    linarith
  · have : 0 ≤ 100 / (1 + P / N) := div_nonneg (by norm_num) (by linarith)
    linarith
  · rw [h, div_zero]; norm_num

/-- C46 refuted: with rising prices and constant volume there is no negative flow, and the value is 0. -/
theorem C46_no_negative_flow_refuted : ∃ (bs : List (Bar ℝ)) (d : List (Rec (XF ℝ))) (r : Rec (XF ℝ)),
    (∀ b ∈ bs, 0 ≤ b.h ∧ 0 ≤ b.l ∧ 0 ≤ b.c ∧ 0 ≤ b.v) ∧ (MFI 2).data (barItem bs) = .ok d ∧ d[1]? = some r ∧
    winSum 2 1 (negFlow bs) = 0 ∧ 0 < winSum 2 1 (posFlow bs) ∧ r.value = .fin 0 := by
  have hw : ∀ b ∈ ([⟨1, 1, 1, 1, 1⟩, ⟨2, 2, 2, 2, 1⟩] : List (Bar ℝ)), 0 ≤ b.h ∧ 0 ≤ b.l ∧ 0 ≤ b.c ∧ 0 ≤ b.v := by
    intro b hb
    simp only [List.mem_cons, List.not_mem_nil, or_false] at hb
    rcases hb with rfl | rfl <;> norm_num
  have hb := holds_barItem ([⟨1, 1, 1, 1, 1⟩, ⟨2, 2, 2, 2, 1⟩] : List (Bar ℝ))
  obtain ⟨x, b, hx, hbs, hc⟩ := hb.cols
  have hd := ((MFI.appends (2 : Nat)).yields (barItem ([⟨1, 1, 1, 1, 1⟩, ⟨2, 2, 2, 2, 1⟩] : List (Bar ℝ))) 2 x hx).1
    (Or.inl (by omega))
  have hN : winSum 2 1 (negFlow ([⟨1, 1, 1, 1, 1⟩, ⟨2, 2, 2, 2, 1⟩] : List (Bar ℝ))) = 0 := by
    norm_num [winSum, negFlow, col, money, Finset.sum_Ico_eq_sum_range, Finset.sum_range_succ]
  have hr : (tab 2 (MFI.out (2 : Nat) x))[1]? = some (MFI.out (2 : Nat) x 1) := tab_getElem?_lt (by omega)
  obtain ⟨v, h1, -, -, -, h0⟩ := C46_mfi_partial (p := 2) hb hw hd hr
  refine ⟨_, _, _, hw, hd, hr, hN, ?_, by rw [h1, h0 hN]⟩
  norm_num [winSum, posFlow, col, money, Finset.sum_Ico_eq_sum_range, Finset.sum_range_succ]

end Verif.Props
