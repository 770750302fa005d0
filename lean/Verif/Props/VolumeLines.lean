import Verif.Props.Lines

/-!
# Volume lines (C80)

Exact arithmetic. Division by zero is 0 in the statements below (Lean's convention); where the code does something
else the statement excludes it.
-/

set_option linter.unusedSectionVars false

namespace Verif.Props
open Verif Verif.Klines Verif.Ta Verif.Ind GoFloat XF

variable {K : Type} [Field K] [LinearOrder K] [IsStrictOrderedRing K]

theorem Holds.col_eq {bs : List (Bar K)} {b : Nat → Bar K} (hbs : bs = tab bs.length b) {j : Nat}
    (hj : j < bs.length) (f : Bar K → K) : col f bs j = f (b j) := by
  conv_lhs => rw [hbs]
  exact col_tab _ b hj

/-- The close of bar `j` minus that of the bar before; the first bar has nothing before it and counts from 0. -/
def closeStep (bs : List (Bar K)) (j : Nat) : K :=
  col Bar.c bs j - if j = 0 then 0 else col Bar.c bs (j - 1)

/-- The middle of bar `j` minus that of the bar before; the first bar counts from 0. -/
def middleStep (bs : List (Bar K)) (j : Nat) : K :=
  (col Bar.h bs j + col Bar.l bs j) / 2 - if j = 0 then 0 else (col Bar.h bs (j - 1) + col Bar.l bs (j - 1)) / 2

/-! ## AccumulationDistribution -/

/-- Where in its range bar `j` closed, from -1 (at the low) to 1 (at the high); 0 for a bar without range. -/
def closeLocation (bs : List (Bar K)) (j : Nat) : K :=
  ((col Bar.c bs j - col Bar.l bs j) - (col Bar.h bs j - col Bar.c bs j)) / (col Bar.h bs j - col Bar.l bs j)

theorem adVal_fin {n : Nat} {x : Nat → Candle (XF K)} {b : Nat → Bar K} (hc : Cols n x b) (i : Nat)
    (hw : (b i).l ≤ (b i).c ∧ (b i).c ≤ (b i).h) :
    ∀ y : K, (if isNaN (adVal x i) then (.fin y : XF K) +. fl 0 else .fin y +. adVal x i) =
      .fin (y + (b i).v * (((b i).c - (b i).l - ((b i).h - (b i).c)) / ((b i).h - (b i).l))) := by
  intro y
  rw [adVal, hc.vo, hc.cl, hc.lo, hc.hi]
  simp only [finF, sub_fin]
  by_cases h : (b i).h - (b i).l = 0
  · have e : (b i).c - (b i).l - ((b i).h - (b i).c) = 0 := by linarith [hw.1, hw.2]
    have hn : ∀ v : K, (.fin v *. .nan : XF K) = .nan := fun _ => rfl
    rw [h, e, div_fin_eq, if_pos rfl, infSign]
    simp [hn]
  · rw [div_fin h]
    simp

/-- **C80**, AccumulationDistribution: on candles whose close lies between low and high the line is the sum of
volume times close location up to the candle. -/
theorem C80_accumulation_distribution {it : Item (XF K)} {bs : List (Bar K)} (hb : Holds it bs)
    (hw : ∀ b ∈ bs, b.l ≤ b.c ∧ b.c ≤ b.h) {d : List (Rec (XF K))} (hd : AD.data it = .ok d) {i : Nat}
    {r : Rec (XF K)} (hr : d[i]? = some r) :
    r.value = .fin (∑ j ∈ Finset.range (i + 1), col Bar.v bs j * closeLocation bs j) := by
  obtain ⟨x, b, hx, hbs, hc⟩ := hb.cols
  obtain ⟨hi, -, rfl, -⟩ := at_index (b := b) AD.appends.yields hx hd hr
  have hw' : ∀ j < bs.length, (b j).l ≤ (b j).c ∧ (b j).c ≤ (b j).h := fun j hj =>
    hw _ (by rw [hbs]; exact mem_tab.mpr ⟨j, hj, rfl⟩)
  show adF x i = _
  clear hr hd
  induction i with
  | zero =>
    have := adVal_fin hc 0 (hw' 0 hi) 0
    rw [adF, show (fl 0 : XF K) = .fin 0 by simp] at *
    rw [this]
    simp [closeLocation, Holds.col_eq hbs hi]
  | succ k ih =>
    rw [adF, ih (by omega), adVal_fin hc (k + 1) (hw' _ hi), Finset.sum_range_succ _ (k + 1)]
    simp only [closeLocation, Holds.col_eq hbs hi]

/-- **C80**, AccumulationDistribution: the close location lies between -1 and 1, so one candle moves the line by at
most its volume. -/
theorem C80_accumulation_step {it : Item (XF K)} {bs : List (Bar K)} (hb : Holds it bs)
    (hw : ∀ b ∈ bs, b.l ≤ b.c ∧ b.c ≤ b.h ∧ 0 ≤ b.v) {d : List (Rec (XF K))} (hd : AD.data it = .ok d) {i : Nat}
    {r s : Rec (XF K)} (hr : d[i]? = some r) (hs : d[i + 1]? = some s) :
    ∃ u w : K, r.value = .fin u ∧ s.value = .fin w ∧ |w - u| ≤ col Bar.v bs (i + 1) := by
  refine ⟨_, _, C80_accumulation_distribution hb (fun b h => ⟨(hw b h).1, (hw b h).2.1⟩) hd hr,
    C80_accumulation_distribution hb (fun b h => ⟨(hw b h).1, (hw b h).2.1⟩) hd hs, ?_⟩
  rw [Finset.sum_range_succ _ (i + 1), add_sub_cancel_left]
  obtain ⟨x, b, hx, hbs, hc⟩ := hb.cols
  obtain ⟨hi, -, -, -⟩ := at_index (b := b) AD.appends.yields hx hd hs
  obtain ⟨h1, h2, h3⟩ := hw (b (i + 1)) (by rw [hbs]; exact mem_tab.mpr ⟨_, hi, rfl⟩)
  rw [closeLocation]
  simp only [Holds.col_eq hbs hi]
  rw [abs_mul, abs_of_nonneg h3]
  refine mul_le_of_le_one_right h3 ?_
  rw [abs_div]
  refine div_le_one_of_le₀ ?_ (abs_nonneg _)
  rw [abs_of_nonneg (show 0 ≤ (b (i + 1)).h - (b (i + 1)).l by linarith), abs_le]
  constructor <;> linarith

/-! ## NegativeVolumeIndex -/

/-- **C80**, NegativeVolumeIndex: starting at 1000, the index is multiplied by the ratio of the closes at every candle
whose volume did not rise, and stays unchanged at the others. -/
theorem C80_negative_volume {it : Item (XF K)} {bs : List (Bar K)} (hb : Holds it bs) (hz : ∀ b ∈ bs, b.c ≠ 0)
    {d : List (Rec (XF K))} (hd : NVI.data it = .ok d) {i : Nat} {r : Rec (XF K)} (hr : d[i]? = some r) :
    r.value = .fin (1000 * ∏ j ∈ Finset.range i, if col Bar.v bs j < col Bar.v bs (j + 1) then 1
      else col Bar.c bs (j + 1) / col Bar.c bs j) := by
  obtain ⟨x, b, hx, hbs, hc⟩ := hb.cols
  obtain ⟨hi, -, rfl, -⟩ := at_index (b := b) NVI.appends.yields hx hd hr
  show nviF x i = _
  clear hr hd
  induction i with
  | zero => simp [nviF]
  | succ k ih =>
    have hk : (b k).c ≠ 0 := hz _ (by rw [hbs]; exact mem_tab.mpr ⟨k, by omega, rfl⟩)
    rw [nviF, ih (by omega), Finset.prod_range_succ, hc.vo, hc.cl]
    simp only [Holds.col_eq hbs hi, Holds.col_eq hbs (show k < bs.length by omega), lt_fin, finF]
    by_cases h : (b k).v < (b (k + 1)).v
    · simp [h]
    · simp only [h, decide_false, Bool.false_eq_true, if_false, sub_fin, div_fin hk, mul_fin, add_fin, XF.fin.injEq]
      field_simp
      ring

/-- **C80**, NegativeVolumeIndex: while volume never rises the index is 1000 times the close over the first close. -/
theorem C80_negative_volume_falling {it : Item (XF K)} {bs : List (Bar K)} (hb : Holds it bs) (hz : ∀ b ∈ bs, b.c ≠ 0)
    {d : List (Rec (XF K))} (hd : NVI.data it = .ok d) {i : Nat} {r : Rec (XF K)} (hr : d[i]? = some r)
    (hv : ∀ j < i, col Bar.v bs (j + 1) ≤ col Bar.v bs j) :
    r.value = .fin (1000 * (col Bar.c bs i / col Bar.c bs 0)) := by
  rw [C80_negative_volume hb hz hd hr]
  obtain ⟨x, b, hx, hbs, hc⟩ := hb.cols
  obtain ⟨hi, -, -, -⟩ := at_index (b := b) NVI.appends.yields hx hd hr
  congr 2
  clear hr hd
  have hz' : ∀ j < bs.length, col Bar.c bs j ≠ 0 := fun j hj => by
    rw [Holds.col_eq hbs hj]; exact hz _ (by rw [hbs]; exact mem_tab.mpr ⟨j, hj, rfl⟩)
  induction i with
  | zero => simp [div_self (hz' 0 hi)]
  | succ k ih =>
    rw [Finset.prod_range_succ, ih (fun j hj => hv j (by omega)) (by omega), if_neg (not_lt.mpr (hv k (by omega)))]
    exact div_mul_div_cancel₀' (hz' k (by omega)) _ _

/-! ## VolumePriceTrend -/

/-- **C80**, VolumePriceTrend: the sum of volume times relative change against the close `p` candles earlier (the
first close for the first `p` candles). -/
theorem C80_volume_price_trend {p : Nat} {it : Item (XF K)} {bs : List (Bar K)} (hb : Holds it bs)
    {d : List (Rec (XF K))} (hd : (VPT p).data it = .ok d) {i : Nat} {r : Rec (XF K)} (hr : d[i]? = some r) :
    r.value = .fin (∑ j ∈ Finset.range (i + 1), col Bar.v bs j *
      ((col Bar.c bs j - col Bar.c bs (j - p)) / col Bar.c bs (j - p))) := by
  obtain ⟨x, b, hx, hbs, hc⟩ := hb.cols
  obtain ⟨hi, -, rfl, -⟩ := at_index (b := b) (VPT.appends p).yields hx hd hr
  show accum (vpt1 (p : Int).toNat x) 0 (i + 1) = _
  have e : vpt1 (p : Int).toNat x = finF fun j => (b j).v * (((b j).c - (b (j - p)).c) / (b (j - p)).c) := by
    funext j
    have es : shiftF (p : Int).toNat (Ind.cl x 0) (Ind.cl x) j = .fin (b (j - p)).c := by
      rw [shiftF, hc.cl, Int.toNat_natCast]
      split
      · rw [show j - p = 0 by omega]
      · rfl
    rw [vpt1, es, hc.vo, hc.cl]
    simp only [finF, subF_fin, safeDiv_fin_eq, mul_fin]
  rw [e, accum_fin]
  congr 1
  refine Finset.sum_congr rfl fun j hj => ?_
  have hj : j < bs.length := by have := Finset.mem_range.mp hj; omega
  simp only [Nat.zero_add, Holds.col_eq hbs hj, Holds.col_eq hbs (show j - p < bs.length by omega)]

/-! ## ForceIndex -/

/-- **C80**, ForceIndex: the exponential average of change of close times volume, the first candle counting its whole
close as a change. -/
theorem C80_force {p : Nat} {it : Item (XF K)} {bs : List (Bar K)} (hb : Holds it bs)
    {d : List (Rec (XF K))} (hd : (Force p).data it = .ok d) :
    ∃ u : Nat → K, (∀ (i : Nat) (r : Rec (XF K)), d[i]? = some r → r.value = .fin (u i)) ∧
      u 0 = closeStep bs 0 * col Bar.v bs 0 ∧
      ∀ i, i + 1 < bs.length → u (i + 1) =
        (2 * (closeStep bs (i + 1) * col Bar.v bs (i + 1)) + ((p : K) - 1) * u i) / ((p : K) + 1) := by
  obtain ⟨x, b, hx, hbs, hc⟩ := hb.cols
  have key : ∀ (i : Nat) (r : Rec (XF K)), d[i]? = some r →
      r.value = .fin (emaK p (fun j => closeStep bs j * col Bar.v bs j) i) := by
    intro i r hr
    obtain ⟨hi, -, rfl, -⟩ := at_index (b := b) (Force.appends p).yields hx hd hr
    have ee : (fun j => subF (Ind.cl x j) (shiftF 1 (fl 0) (Ind.cl x) j) *. Ind.vo x j) =
        finF fun j => ((b j).c - if j = 0 then 0 else (b (j - 1)).c) * (b j).v := by
      funext j
      rw [shiftF, hc.cl, hc.vo]
      by_cases h : j = 0
      · subst h; simp [finF, subF_fin]
      · rw [if_neg (by omega)]; simp [finF, subF_fin, h]
    show emaF p _ i = _
    rw [ee, emaF_fin]
    congr 1
    clear hr
    have es : ∀ j < bs.length, closeStep bs j * col Bar.v bs j =
        ((b j).c - if j = 0 then 0 else (b (j - 1)).c) * (b j).v := fun j hj => by
      rw [closeStep]
      simp only [Holds.col_eq hbs hj, Holds.col_eq hbs (show j - 1 < bs.length by omega)]
    induction i with
    | zero => rw [emaK, emaK, es 0 hi]
    | succ k ih => rw [emaK, emaK, ih (by omega), es _ hi]
  exact ⟨_, key, rfl, fun i _ => rfl⟩

/-- **C80**, ForceIndex: on a market whose close never moves the index is not 0: the first candle's close times volume
fades away geometrically. -/
theorem C80_force_still {p : Nat} {it : Item (XF K)} {bs : List (Bar K)} (hb : Holds it bs) {c : K}
    (hcst : ∀ b ∈ bs, b.c = c) {d : List (Rec (XF K))} (hd : (Force p).data it = .ok d) {i : Nat} {r : Rec (XF K)}
    (hr : d[i]? = some r) : r.value = .fin (c * col Bar.v bs 0 * (((p : K) - 1) / ((p : K) + 1)) ^ i) := by
  obtain ⟨u, hu, h0, hs⟩ := C80_force hb hd
  obtain ⟨x, b, hx, hbs, hc⟩ := hb.cols
  obtain ⟨hi, -, -, -⟩ := at_index (b := b) (Force.appends p).yields hx hd hr
  rw [hu i r hr]
  have hcc : ∀ j < bs.length, col Bar.c bs j = c := fun j hj => by
    rw [Holds.col_eq hbs hj]; exact hcst _ (by rw [hbs]; exact mem_tab.mpr ⟨j, hj, rfl⟩)
  congr 1
  clear hr
  induction i with
  | zero => rw [h0, closeStep, hcc 0 hi]; simp
  | succ k ih =>
    rw [hs k hi, ih (by omega), closeStep, if_neg (by omega), hcc _ hi, hcc _ (by omega), pow_succ]
    ring

/-! ## EaseOfMovement -/

/-- **C80**, EaseOfMovement: the mean over the last `p` candles of the move of the candle's middle times its range per
hundred million of volume (0 for a candle without volume). -/
theorem C80_ease {p : Nat} (hp : 0 < p) {it : Item (XF K)} {bs : List (Bar K)} (hb : Holds it bs)
    {d : List (Rec (XF K))} (hd : (EMV p).data it = .ok d) {i : Nat} {r : Rec (XF K)} (hr : d[i]? = some r) :
    r.value = .fin (winSum p i (fun j => middleStep bs j * (col Bar.h bs j - col Bar.l bs j) /
      (col Bar.v bs j / 100000000)) / (min p (i + 1) : Nat)) := by
  obtain ⟨x, b, hx, hbs, hc⟩ := hb.cols
  obtain ⟨hi, -, rfl, -⟩ := at_index (b := b) (EMV.appends p).yields hx hd hr
  have em : ∀ j, midF x j = .fin (((b j).h + (b j).l) / 2) := fun j => by
    rw [midF, hc.hi, hc.lo]
    simp only [finF, add_fin, fl_fin]
    rw [div_fin (by norm_num), mul_fin]
    congr 1
    push_cast; ring
  have ee : emv1 x = finF fun j => (((b j).h + (b j).l) / 2 - if j = 0 then 0 else ((b (j - 1)).h + (b (j - 1)).l) / 2) *
      ((b j).h - (b j).l) / ((b j).v / 100000000) := by
    funext j
    have es : shiftF 1 (fl 0) (midF x) j = .fin (if j = 0 then 0 else ((b (j - 1)).h + (b (j - 1)).l) / 2) := by
      rw [shiftF]
      by_cases h : j = 0
      · subst h; simp
      · rw [if_neg (by omega), em]; simp [h]
    rw [emv1, em, es, hc.vo, hc.hi, hc.lo]
    simp only [finF, fl_fin]
    rw [div_fin (by norm_num)]
    simp only [subF_fin, mul_fin, safeDiv_fin_eq]
    congr 1
    push_cast
    rw [div_div_eq_mul_div]
    ring
  show smaF (p : Int).toNat _ i = _
  rw [Int.toNat_natCast, ee, smaF_fin hp, winSum, Finset.sum_Ico_eq_sub _ (by omega)]
  congr 2
  have hcc : ∀ j ∈ Finset.range (i + 1), middleStep bs j * (col Bar.h bs j - col Bar.l bs j) / (col Bar.v bs j / 100000000) =
      (((b j).h + (b j).l) / 2 - if j = 0 then 0 else ((b (j - 1)).h + (b (j - 1)).l) / 2) *
      ((b j).h - (b j).l) / ((b j).v / 100000000) := fun j hj => by
    have hj : j < bs.length := by have := Finset.mem_range.mp hj; omega
    rw [middleStep]
    simp only [Holds.col_eq hbs hj, Holds.col_eq hbs (show j - 1 < bs.length by omega)]
  rw [Finset.sum_congr rfl hcc, Finset.sum_congr rfl fun j hj => hcc j (by
    have := Finset.mem_range.mp hj; exact Finset.mem_range.mpr (by omega))]
  rfl

example : AD.data (barItem threeBars) = .ok [⟨0, .fin 0⟩, ⟨0, .fin (20 / 3)⟩, ⟨0, .fin (-70 / 3)⟩] := by decide +kernel

example : NVI.data (barItem threeBars.reverse) = .ok [⟨0, .fin 1000⟩, ⟨0, .fin 4000⟩, ⟨0, .fin 2000⟩] := by
  decide +kernel

example : (VPT 1).data (barItem threeBars) = .ok [⟨0, .fin 0⟩, ⟨0, .fin 20⟩, ⟨0, .fin (-5 / 2)⟩] := by decide +kernel

example : (EMV 2).data (barItem threeBars) = .ok [⟨0, .fin 40000000⟩, ⟨0, .fin 31250000⟩, ⟨0, .fin 6250000⟩] := by
  decide +kernel

/-- Three equal candles: the force index of a market standing still is 50, 300/7, 1800/49. -/
example : (Force 13).data (barItem (List.replicate 3 (⟨10, 10, 10, 10, 5⟩ : Bar ℚ))) =
    .ok [⟨0, .fin 50⟩, ⟨0, .fin (300 / 7)⟩, ⟨0, .fin (1800 / 49)⟩] := by decide +kernel

end Verif.Props
