import Verif.Props.Lines
import Verif.Props.Breakout
import Verif.Ind.Trend2

/-!
# Directional movement and vortex (C63, C64, C66)
-/

set_option linter.unusedSectionVars false

namespace Verif.Props
open Verif Verif.Klines Verif.Ta Verif.Ind GoFloat XF

variable {K : Type} [Field K] [LinearOrder K] [IsStrictOrderedRing K]

section spec
variable (b : Nat → Bar K)

/-- True range of candle `i` (0 for the first candle). -/
def rangeAt : Nat → K
  | 0 => 0
  | k + 1 => wilderRange (b (k + 1)) (b k).c

/-- Upward directional movement of candle `i`. -/
def moveUp : Nat → K
  | 0 => 0
  | k + 1 => if (b k).l - (b (k + 1)).l < (b (k + 1)).h - (b k).h ∧ 0 < (b (k + 1)).h - (b k).h
      then (b (k + 1)).h - (b k).h else 0

/-- Downward directional movement of candle `i`. -/
def moveDown : Nat → K
  | 0 => 0
  | k + 1 => if (b (k + 1)).h - (b k).h < (b k).l - (b (k + 1)).l ∧ 0 < (b k).l - (b (k + 1)).l
      then (b k).l - (b (k + 1)).l else 0

/-- Wilder's running total with the given length. -/
def wilderTotal (len : K) (v : Nat → K) : Nat → K
  | 0 => 0
  | k + 1 => wilderTotal len v k - wilderTotal len v k / len + v (k + 1)

end spec

theorem wilderTotal_le {len : K} (hl : 1 ≤ len) {v w : Nat → K} (h : ∀ j, v j ≤ w j) (k : Nat) :
    wilderTotal len v k ≤ wilderTotal len w k := by
  induction k with
  | zero => exact le_refl _
  | succ k ih =>
    have hpos : 0 < len := lt_of_lt_of_le one_pos hl
    have e : ∀ s : K, s - s / len = s * (1 - 1 / len) := fun s => by ring
    have h1 : 0 ≤ 1 - 1 / len := by
      have : 1 / len ≤ 1 := (div_le_one hpos).mpr hl
      linarith
    rw [wilderTotal, wilderTotal, e (wilderTotal len v k), e (wilderTotal len w k)]
    exact add_le_add (mul_le_mul_of_nonneg_right ih h1) (h _)

theorem wilderTotal_zero (len : K) (k : Nat) : wilderTotal len (fun _ => 0) k = 0 := by
  induction k with
  | zero => rfl
  | succ k ih => rw [wilderTotal, ih]; simp

theorem wilderTotal_nonneg {len : K} (hl : 1 ≤ len) {v : Nat → K} (h : ∀ j, 0 ≤ v j) (k : Nat) : 0 ≤ wilderTotal len v k := by
  have := wilderTotal_le hl (v := fun _ => 0) h k
  rwa [wilderTotal_zero] at this

theorem wilderTotal_add (len : K) (v w : Nat → K) (k : Nat) :
    wilderTotal len v k + wilderTotal len w k = wilderTotal len (fun j => v j + w j) k := by
  induction k with
  | zero => simp [wilderTotal]
  | succ k ih => rw [wilderTotal, wilderTotal, wilderTotal, ← ih]; ring

theorem wilderRange_nonneg (b : Bar K) (pc : K) : 0 ≤ wilderRange b pc :=
  le_trans (abs_nonneg _) (le_trans (le_max_left _ _) (le_max_right _ _))

theorem rangeAt_nonneg (b : Nat → Bar K) (j : Nat) : 0 ≤ rangeAt b j := by
  cases j with
  | zero => exact le_refl _
  | succ j => exact wilderRange_nonneg _ _

theorem moves_nonneg (b : Nat → Bar K) (j : Nat) : 0 ≤ moveUp b j ∧ 0 ≤ moveDown b j := by
  cases j with
  | zero => exact ⟨le_refl _, le_refl _⟩
  | succ j =>
    rw [moveUp, moveDown]
    constructor
    · split
      · next h => exact le_of_lt h.2
      · exact le_refl _
    · split
      · next h => exact le_of_lt h.2
      · exact le_refl _

theorem moves_le_range {b : Nat → Bar K} (hw : ∀ j, (b j).WF) (j : Nat) : moveUp b j + moveDown b j ≤ rangeAt b j := by
  cases j with
  | zero => simp [moveUp, moveDown, rangeAt]
  | succ j =>
    obtain ⟨-, -, h1, h2⟩ := hw j
    rw [moveUp, moveDown, rangeAt]
    have r1 : (b (j + 1)).h - (b j).c ≤ wilderRange (b (j + 1)) (b j).c :=
      le_trans (le_abs_self _) (le_trans (le_max_left _ _) (le_max_right _ _))
    have r2 : (b j).c - (b (j + 1)).l ≤ wilderRange (b (j + 1)) (b j).c := by
      refine le_trans ?_ (le_trans (le_max_right _ _) (le_max_right _ _))
      rw [abs_sub_comm]; exact le_abs_self _
    have r3 := wilderRange_nonneg (b (j + 1)) (b j).c
    split
    · next h =>
      rw [if_neg (fun h' => absurd h.1 (not_lt_of_gt h'.1))]
      linarith
    · split <;> linarith

section cols
variable {n : Nat} {x : Nat → Candle (XF K)} {b : Nat → Bar K}

theorem adxTR_fin (hc : Cols n x b) : adxTR x = finF (rangeAt b) := by
  funext i
  cases i with
  | zero => simp [adxTR, rangeAt]
  | succ k =>
    rw [adxTR, ADX.calculateTR, hc.hi, hc.lo, hc.cl]
    simp only [finF, sub_fin, abs_fin', max_fin]
    rfl

theorem adxDM_fin (hc : Cols n x b) : (fun j => (adxDM x j).1) = finF (moveUp b) ∧ (fun j => (adxDM x j).2) = finF (moveDown b) := by
  have f0 : (fl 0 : XF K) = .fin 0 := by simp
  constructor <;> funext i <;> cases i with
  | zero => simp [adxDM, moveUp, moveDown]
  | succ k =>
    rw [adxDM, ADX.calculateDM, hc.hi, hc.lo]
    simp only [finF, sub_fin, GoFloat.gt, lt_fin, f0, ← Bool.decide_and, decide_eq_true_iff, moveUp, moveDown]
    split <;> rfl

theorem smoothF_fin {len : Int} (hl : 1 ≤ len) (v : Nat → K) : smoothF len (finF v) = finF (wilderTotal (len : K) v) := by
  have h0 : ((len : Int) : K) ≠ 0 := by
    have : (0 : K) < (len : K) := by exact_mod_cast (by omega : 0 < len)
    exact ne_of_gt this
  funext i
  induction i with
  | zero => simp [smoothF, wilderTotal]
  | succ k ih =>
    rw [smoothF, ih, fl_fin]
    simp only [finF, div_fin h0, sub_fin, add_fin]
    rfl

end cols

/-- The index of the trend: 100 times the difference of two numbers by their sum. -/
def dxOf (p m : K) : K := 100 * (|p - m| / (p + m))

theorem dxOf_bounds {p m : K} (hp : 0 ≤ p) (hm : 0 ≤ m) : 0 ≤ dxOf p m ∧ dxOf p m ≤ 100 := by
  have hs : 0 ≤ p + m := add_nonneg hp hm
  have h1 : |p - m| ≤ p + m := abs_le.mpr ⟨by linarith, by linarith⟩
  have h2 : 0 ≤ |p - m| / (p + m) := div_nonneg (abs_nonneg _) hs
  have h3 : |p - m| / (p + m) ≤ 1 := div_le_one_of_le₀ h1 hs
  constructor
  · exact mul_nonneg (by norm_num) h2
  · rw [dxOf]; linarith

theorem runSum_nan {p : Nat} {y : Nat → XF K} {m : Nat} (hm : y m = .nan) : ∀ k, m < k → runSum p y k = .nan := by
  have e1 : ∀ a : XF K, (.nan +. a : XF K) = .nan := fun a => by cases a <;> rfl
  have e2 : ∀ a : XF K, (a +. .nan : XF K) = .nan := fun a => by cases a <;> rfl
  have e3 : ∀ a : XF K, (.nan -. a : XF K) = .nan := fun a => by cases a <;> rfl
  intro k hk
  induction k with
  | zero => omega
  | succ k ih =>
    rw [runSum]
    by_cases h : m = k
    · subst h
      rw [hm, e2]
      split
      · exact e3 _
      · rfl
    · rw [ih (by omega), e1]
      split
      · exact e3 _
      · rfl

theorem runSum_congr {p : Nat} {y z : Nat → XF K} : ∀ k, (∀ j, j < k → y j = z j) → runSum p y k = runSum p z k := by
  intro k
  induction k with
  | zero => intro _; rfl
  | succ k ih =>
    intro h
    rw [runSum, runSum, ih fun j hj => h j (by omega), h k (by omega)]
    split
    · rw [h (k - p) (by omega)]
    · rfl

theorem smaF_nan {p : Nat} {y : Nat → XF K} {m i : Nat} (hm : y m = .nan) (hi : m ≤ i) : smaF p y i = .fin 0 := by
  have e4 : ∀ a : XF K, (.nan /. a : XF K) = .nan := fun a => by cases a <;> rfl
  rw [smaF, runSum_nan hm _ (by omega), e4, smaFix]
  simp

theorem smaF_win {p : Nat} (hp : 0 < p) {y : Nat → XF K} {a : Nat → K} {i : Nat} (h : ∀ j, j ≤ i → y j = .fin (a j)) :
    smaF p y i = .fin (winSum p i a / (Min.min p (i + 1) : Nat)) := by
  have : smaF p y i = smaF p (finF a) i := by
    rw [smaF, smaF, runSum_congr (z := finF a) _ fun j hj => h j (by omega)]
  rw [this, smaF_fin hp, winSum, Finset.sum_Ico_eq_sub _ (by omega)]
  rfl

theorem winMean_bounds {p i : Nat} (hp : 0 < p) {a : Nat → K} {lo hi : K} (h : ∀ j, j ≤ i → lo ≤ a j ∧ a j ≤ hi) :
    lo ≤ winSum p i a / (Min.min p (i + 1) : Nat) ∧ winSum p i a / (Min.min p (i + 1) : Nat) ≤ hi := by
  have hc : winSum p i (fun _ => (1 : K)) = (Min.min p (i + 1) : Nat) := by
    rw [winSum, Finset.sum_const, Nat.card_Ico]
    simp only [nsmul_eq_mul, mul_one]
    congr 1; omega
  have hpos : (0 : K) < winSum p i (fun _ => (1 : K)) := by
    rw [hc]; exact_mod_cast (by omega : 0 < Min.min p (i + 1))
  have := weighted_bounds (p := p) (i := i) (a := a) (w := fun _ => 1) (lo := lo) (hi := hi)
    (fun _ _ => zero_le_one) (fun j _ hj => h j hj) hpos
  rw [hc] at this
  simpa using this

section adx
variable {period len : Int} {n : Nat} {x : Nat → Candle (XF K)} {b : Nat → Bar K}

/-- `+DI` and `-DI` as numbers, where the smoothed true range is not 0. -/
theorem adx_di (hc : Cols n x b) (hl : 1 ≤ len) {i : Nat} (hi : period ≤ (i : Int) + 1)
    (hr : wilderTotal (len : K) (rangeAt b) i ≠ 0) :
    adxPlus period len x i = .fin (wilderTotal (len : K) (moveUp b) i / wilderTotal (len : K) (rangeAt b) i * 100) ∧
    adxMinus period len x i = .fin (wilderTotal (len : K) (moveDown b) i / wilderTotal (len : K) (rangeAt b) i * 100) := by
  have f100 : (fl 100 : XF K) = .fin 100 := by simp
  rw [adxPlus, adxMinus, if_neg (by omega), if_neg (by omega), adxTR_fin hc, (adxDM_fin hc).1, (adxDM_fin hc).2,
    smoothF_fin hl, smoothF_fin hl, smoothF_fin hl, f100]
  simp only [finF, div_fin hr, mul_fin]
  trivial

theorem adx_di_nan (hc : Cols n x b) (hw : ∀ j, (b j).WF) (hl : 1 ≤ len) {i : Nat} (hi : period ≤ (i : Int) + 1)
    (hr : wilderTotal (len : K) (rangeAt b) i = 0) :
    adxPlus period len x i = .nan ∧ adxMinus period len x i = .nan := by
  have hl' : (1 : K) ≤ (len : K) := by exact_mod_cast hl
  have hu := wilderTotal_nonneg hl' (fun j => (moves_nonneg b j).1) i
  have hd := wilderTotal_nonneg hl' (fun j => (moves_nonneg b j).2) i
  have hs := wilderTotal_le hl' (moves_le_range hw) i
  rw [← wilderTotal_add, hr] at hs
  have e1 : wilderTotal (len : K) (moveUp b) i = 0 := by linarith
  have e2 : wilderTotal (len : K) (moveDown b) i = 0 := by linarith
  rw [adxPlus, adxMinus, if_neg (by omega), if_neg (by omega), adxTR_fin hc, (adxDM_fin hc).1, (adxDM_fin hc).2,
    smoothF_fin hl, smoothF_fin hl, smoothF_fin hl]
  simp only [finF, hr, e1, e2, div_fin_eq, if_true, infSign, lt_irrefl, if_false]
  exact ⟨rfl, rfl⟩

/-- `DX`: a number between 0 and 100 where a direction is seen, NaN where not. -/
theorem adx_dx (hc : Cols n x b) (hw : ∀ j, (b j).WF) (hl : 1 ≤ len) (i : Nat) :
    (∃ v : K, adxDX period len x i = .fin v ∧ 0 ≤ v ∧ v ≤ 100) ∨ adxDX period len x i = .nan := by
  have hl' : (1 : K) ≤ (len : K) := by exact_mod_cast hl
  have f0 : (fl 0 : XF K) = .fin 0 := by simp
  have f100 : (fl 100 : XF K) = .fin 100 := by simp
  rw [adxDX]
  split
  · exact Or.inl ⟨0, f0, le_refl _, by norm_num⟩
  · next hi =>
    by_cases hr : wilderTotal (len : K) (rangeAt b) i = 0
    · obtain ⟨h1, h2⟩ := adx_di_nan (period := period) hc hw hl (by omega) hr
      right
      rw [h1, h2]; rfl
    · obtain ⟨h1, h2⟩ := adx_di (period := period) hc hl (by omega) hr
      have hrp : 0 ≤ wilderTotal (len : K) (rangeAt b) i := wilderTotal_nonneg hl' (rangeAt_nonneg b) i
      have hp : 0 ≤ wilderTotal (len : K) (moveUp b) i / wilderTotal (len : K) (rangeAt b) i * 100 :=
        mul_nonneg (div_nonneg (wilderTotal_nonneg hl' (fun j => (moves_nonneg b j).1) i) hrp) (by norm_num)
      have hm : 0 ≤ wilderTotal (len : K) (moveDown b) i / wilderTotal (len : K) (rangeAt b) i * 100 :=
        mul_nonneg (div_nonneg (wilderTotal_nonneg hl' (fun j => (moves_nonneg b j).2) i) hrp) (by norm_num)
      rw [h1, h2, f100]
      revert hp hm
      generalize wilderTotal (len : K) (moveUp b) i / wilderTotal (len : K) (rangeAt b) i * 100 = p
      generalize wilderTotal (len : K) (moveDown b) i / wilderTotal (len : K) (rangeAt b) i * 100 = m
      intro hp hm
      simp only [sub_fin, add_fin, abs_fin']
      by_cases hs : p + m = 0
      · right
        have : p = 0 := by linarith
        have : m = 0 := by linarith
        subst p m
        simp [div_fin_eq, infSign]
        rfl
      · left
        exact ⟨dxOf p m, by rw [div_fin hs, mul_fin]; rfl, dxOf_bounds hp hm⟩

end adx

/-- The bars at all indices are well formed when those of the list are. -/
theorem bar_wf {bs : List (Bar K)} (hw : ∀ b ∈ bs, b.WF) (j : Nat) : (bar bs j).WF := by
  unfold bar
  by_cases hj : j < bs.length
  · rw [List.getElem?_eq_getElem hj]
    exact hw _ (List.getElem_mem hj)
  · rw [List.getElem?_eq_none (by omega)]
    simp [Bar.WF]

theorem wilderTotal_pos {len : K} (hl : 1 < len) {v : Nat → K} (h : ∀ j, 0 ≤ v j) {j : Nat} (hj : 0 < j) (hv : 0 < v j) :
    ∀ i, j ≤ i → 0 < wilderTotal len v i := by
  have hpos : 0 < len := lt_trans one_pos hl
  have h1 : 0 < 1 - 1 / len := by
    have : 1 / len < 1 := (div_lt_one hpos).mpr hl
    linarith
  have e : ∀ s : K, s - s / len = s * (1 - 1 / len) := fun s => by ring
  intro i hi
  induction i with
  | zero => omega
  | succ i ih =>
    rw [wilderTotal, e (wilderTotal len v i)]
    by_cases hji : j = i + 1
    · subst hji
      exact add_pos_of_nonneg_of_pos (mul_nonneg (wilderTotal_nonneg (le_of_lt hl) h i) (le_of_lt h1)) hv
    · exact add_pos_of_pos_of_nonneg (mul_pos (ih (by omega)) h1) (h _)

theorem wilderTotal_zero_of {len : K} {v : Nat → K} : ∀ i, (∀ j, j ≤ i → v j = 0) → wilderTotal len v i = 0 := by
  intro i
  induction i with
  | zero => intro _; rfl
  | succ i ih => intro h; rw [wilderTotal, ih fun j hj => h j (by omega), h _ (le_refl _)]; simp

/-- C63: on candles whose open and close lie between low and high, with a smoothing length of at least 2, the ADX is a
number between 0 and 100 at every candle. The directional indicators are 0 before the first full period. From then on,
once some candle has had a true range above 0 they are the smoothed movements as percentages of the smoothed true range,
both are at least 0 and together at most 100; before that they are NaN. -/
theorem C63_range {period len : Int} (hl : 2 ≤ len) {it : Item (XF K)} {bs : List (Bar K)} (hb : Holds it bs)
    (hw : ∀ b ∈ bs, b.WF) {d : List (ADX.Data (XF K))} (hd : (ADX period len).data it = .ok d) :
    d.length = bs.length ∧ ∀ (i : Nat) (v : ADX.Data (XF K)), d[i]? = some v →
      let b := bar bs
      (∃ a : K, v.adx = .fin a ∧ 0 ≤ a ∧ a ≤ 100) ∧
      ((i : Int) + 1 < period → v.plus = .fin 0 ∧ v.minus = .fin 0) ∧
      (period ≤ (i : Int) + 1 → (∃ j, j ≤ i ∧ 0 < rangeAt b j) → ∃ p m : K, v.plus = .fin p ∧ v.minus = .fin m ∧
        p = wilderTotal (len : K) (moveUp b) i / wilderTotal (len : K) (rangeAt b) i * 100 ∧
        m = wilderTotal (len : K) (moveDown b) i / wilderTotal (len : K) (rangeAt b) i * 100 ∧
        0 ≤ p ∧ 0 ≤ m ∧ p + m ≤ 100) ∧
      (period ≤ (i : Int) + 1 → (∀ j, j ≤ i → rangeAt b j = 0) → v.plus = .nan ∧ v.minus = .nan) := by
  obtain ⟨x, b, hx, hbs, hc, h0⟩ := hb.cols₀
  obtain ⟨-, rfl⟩ := yields_inv (ADX.makes period len).yields hx hd
  have eb := bar_eq hbs h0
  have hwf : ∀ j, (b j).WF := by rw [eb]; exact bar_wf hw
  have hl1 : 1 ≤ len := by omega
  have hlK : (1 : K) ≤ (len : K) := by exact_mod_cast hl1
  have hlK2 : (1 : K) < (len : K) := by exact_mod_cast (by omega : 1 < len)
  refine ⟨tab_length _ _, fun i v hv => ?_⟩
  rw [← eb]
  intro b'
  have hi : i < bs.length := by simpa using (List.getElem?_eq_some_iff.mp hv).1
  rw [tab_getElem?_lt hi] at hv
  cases hv
  refine ⟨?_, fun h => ?_, fun h ⟨j, hj, hpos⟩ => ?_, fun h hz => ?_⟩
  · by_cases hn : ∃ m, m ≤ i ∧ adxDX period len x m = .nan
    · obtain ⟨m, hm, hm'⟩ := hn
      exact ⟨0, smaF_nan hm' hm, le_refl _, by norm_num⟩
    · have hf : ∀ j, ∃ v : K, j ≤ i → adxDX period len x j = .fin v ∧ 0 ≤ v ∧ v ≤ 100 := by
        intro j
        by_cases hj : j ≤ i
        · rcases adx_dx (period := period) hc hwf hl1 j with ⟨v, h1, h2, h3⟩ | h
          · exact ⟨v, fun _ => ⟨h1, h2, h3⟩⟩
          · exact absurd ⟨j, hj, h⟩ hn
        · exact ⟨0, fun h => absurd h hj⟩
      choose a ha using hf
      exact ⟨_, smaF_win (by omega) fun j hj => (ha j hj).1, winMean_bounds (by omega) fun j hj => (ha j hj).2⟩
  · simp only [ADX.out, adxPlus, adxMinus, if_pos h]
    simp
  · have hj0 : 0 < j := by
      rcases Nat.eq_zero_or_pos j with rfl | h
      · exact absurd hpos (lt_irrefl _)
      · exact h
    have hr := wilderTotal_pos hlK2 (rangeAt_nonneg b) hj0 hpos i hj
    obtain ⟨h1, h2⟩ := adx_di (period := period) hc hl1 h (ne_of_gt hr)
    refine ⟨_, _, h1, h2, rfl, rfl, ?_, ?_, ?_⟩
    · exact mul_nonneg (div_nonneg (wilderTotal_nonneg hlK (fun j => (moves_nonneg b j).1) i) (le_of_lt hr)) (by norm_num)
    · exact mul_nonneg (div_nonneg (wilderTotal_nonneg hlK (fun j => (moves_nonneg b j).2) i) (le_of_lt hr)) (by norm_num)
    · have hs := wilderTotal_le hlK (moves_le_range hwf) i
      rw [← wilderTotal_add] at hs
      rw [← add_mul, ← add_div]
      have := (div_le_one hr).mpr hs
      linarith
  · exact adx_di_nan (period := period) hc hwf hl1 h (wilderTotal_zero_of i hz)

/-- `DX` of candle `j`: 0 before the first full period, afterwards 100 times the difference of the two smoothed movements
by their sum. -/
def dxAt (b : Nat → Bar K) (period : Int) (len : K) (j : Nat) : K :=
  if (j : Int) + 1 < period then 0 else dxOf (wilderTotal len (moveUp b) j) (wilderTotal len (moveDown b) j)

theorem adx_dx_val {period len : Int} {n : Nat} {x : Nat → Candle (XF K)} {b : Nat → Bar K}
    (hc : Cols n x b) (hw : ∀ j, (b j).WF) (hl : 1 ≤ len) (i : Nat)
    (hs : period ≤ (i : Int) + 1 → wilderTotal (len : K) (moveUp b) i + wilderTotal (len : K) (moveDown b) i ≠ 0) :
    adxDX period len x i = .fin (dxAt b period len i) := by
  have hlK : (1 : K) ≤ (len : K) := by exact_mod_cast hl
  have f100 : (fl 100 : XF K) = .fin 100 := by simp
  rw [adxDX, dxAt]
  split
  · simp
  · next hi =>
    have hu := wilderTotal_nonneg hlK (fun j => (moves_nonneg b j).1) i
    have hd := wilderTotal_nonneg hlK (fun j => (moves_nonneg b j).2) i
    have hs := hs (by omega)
    have hle := wilderTotal_le hlK (moves_le_range hw) i
    rw [← wilderTotal_add] at hle
    have hsp : 0 < wilderTotal (len : K) (moveUp b) i + wilderTotal (len : K) (moveDown b) i :=
      lt_of_le_of_ne (add_nonneg hu hd) (Ne.symm hs)
    have hr : 0 < wilderTotal (len : K) (rangeAt b) i := lt_of_lt_of_le hsp hle
    obtain ⟨h1, h2⟩ := adx_di (period := period) hc hl (by omega) (ne_of_gt hr)
    rw [h1, h2, f100]
    revert hsp hr
    generalize wilderTotal (len : K) (moveUp b) i = p
    generalize wilderTotal (len : K) (moveDown b) i = m
    generalize wilderTotal (len : K) (rangeAt b) i = r
    intro hr hsp
    simp only [sub_fin, add_fin, abs_fin']
    have hr0 : r ≠ 0 := ne_of_gt hsp
    have e1 : p / r * 100 - m / r * 100 = (p - m) * (100 / r) := by ring
    have e2 : p / r * 100 + m / r * 100 = (p + m) * (100 / r) := by ring
    have hq : 0 < 100 / r := div_pos (by norm_num) hsp
    rw [e1, e2, abs_mul, abs_of_pos hq, div_fin (mul_ne_zero (ne_of_gt hr) (ne_of_gt hq)), mul_fin, dxOf,
      mul_div_mul_right _ _ (ne_of_gt hq)]

/-- C66, where it holds: when the smoothed movements have not both been 0 at any candle from the first full period on, the
ADX is the mean of the last `len` DX values (of all of them, when there are fewer). -/
theorem C66_mean_partial {period len : Int} (hl : 1 ≤ len) {it : Item (XF K)} {bs : List (Bar K)} (hb : Holds it bs)
    (hw : ∀ b ∈ bs, b.WF) {d : List (ADX.Data (XF K))} (hd : (ADX period len).data it = .ok d)
    {i : Nat} {v : ADX.Data (XF K)} (hv : d[i]? = some v)
    (hs : ∀ j, j ≤ i → period ≤ (j : Int) + 1 →
      wilderTotal (len : K) (moveUp (bar bs)) j ≠ 0 ∨ wilderTotal (len : K) (moveDown (bar bs)) j ≠ 0) :
    v.adx = .fin (mean ((List.range' (i + 1 - len.toNat) (Min.min len.toNat (i + 1))).map (dxAt (bar bs) period len))) := by
  obtain ⟨x, b, hx, hbs, hc, h0⟩ := hb.cols₀
  obtain ⟨-, rfl⟩ := yields_inv (ADX.makes period len).yields hx hd
  have eb := bar_eq hbs h0
  have hwf : ∀ j, (b j).WF := by rw [eb]; exact bar_wf hw
  have hlK : (1 : K) ≤ (len : K) := by exact_mod_cast hl
  have hi : i < bs.length := by simpa using (List.getElem?_eq_some_iff.mp hv).1
  rw [tab_getElem?_lt hi] at hv
  cases hv
  rw [← eb] at hs ⊢
  have h1 : ∀ j, j ≤ i → adxDX period len x j = .fin (dxAt b period len j) := by
    intro j hj
    refine adx_dx_val hc hwf hl j fun hp => ?_
    have hu := wilderTotal_nonneg hlK (fun j => (moves_nonneg b j).1) j
    have hd := wilderTotal_nonneg hlK (fun j => (moves_nonneg b j).2) j
    intro he
    rcases hs j hj hp with h | h
    · exact h (by linarith)
    · exact h (by linarith)
  have h2 := smaF_win (p := len.toNat) (by omega) h1
  rw [ADX.out]
  show smaF len.toNat (adxDX period len x) i = _
  rw [h2, mean, winSum, Finset.sum_Ico_eq_sum_range, List.length_map, List.length_range',
    show i + 1 - (i + 1 - len.toNat) = Min.min len.toNat (i + 1) by omega]
  congr 2
  rw [List.range'_eq_map_range, List.map_map]
  exact Multiset.sum_coe ((List.range _).map fun k => dxAt b period len (i + 1 - len.toNat + k))

/-- Where C66 fails: after a candle, from the first full period on, at which both smoothed movements are 0, the ADX is 0
for ever, whatever the market does. -/
theorem C66_stuck {period len : Int} (hl : 1 ≤ len) {it : Item (XF K)} {bs : List (Bar K)} (hb : Holds it bs)
    (hw : ∀ b ∈ bs, b.WF) {d : List (ADX.Data (XF K))} (hd : (ADX period len).data it = .ok d)
    {i : Nat} {v : ADX.Data (XF K)} (hv : d[i]? = some v) {j : Nat} (hj : j ≤ i) (hp : period ≤ (j : Int) + 1)
    (hu : wilderTotal (len : K) (moveUp (bar bs)) j = 0) (hm : wilderTotal (len : K) (moveDown (bar bs)) j = 0) :
    v.adx = .fin 0 := by
  obtain ⟨x, b, hx, hbs, hc, h0⟩ := hb.cols₀
  obtain ⟨-, rfl⟩ := yields_inv (ADX.makes period len).yields hx hd
  have eb := bar_eq hbs h0
  have hwf : ∀ j, (b j).WF := by rw [eb]; exact bar_wf hw
  have hi : i < bs.length := by simpa using (List.getElem?_eq_some_iff.mp hv).1
  rw [tab_getElem?_lt hi] at hv
  cases hv
  rw [← eb] at hu hm
  refine smaF_nan (m := j) ?_ hj
  have f100 : (fl 100 : XF K) = .fin 100 := by simp
  rw [adxDX, if_neg (by omega)]
  by_cases hr : wilderTotal (len : K) (rangeAt b) j = 0
  · obtain ⟨h1, h2⟩ := adx_di_nan (period := period) hc hwf hl hp hr
    rw [h1, h2]; rfl
  · obtain ⟨h1, h2⟩ := adx_di (period := period) hc hl hp hr
    rw [h1, h2, hu, hm, f100]
    simp only [zero_div, zero_mul, sub_fin, add_fin, abs_fin', sub_zero, add_zero, abs_zero, div_fin_eq, if_true,
      infSign, lt_irrefl, if_false]
    rfl

/-! The hypotheses are met: candles that rise, fall and rise again. -/

/-- A market that stands still for two candles and then rises. -/
def stillBars : List (Bar ℚ) := [⟨1, 1, 1, 1, 0⟩, ⟨1, 1, 1, 1, 0⟩, ⟨1, 3, 1, 2, 0⟩, ⟨2, 5, 2, 4, 0⟩, ⟨4, 7, 3, 6, 0⟩]

/-- A market that rises, then falls. -/
def waveBars : List (Bar ℚ) := [⟨1, 1, 1, 1, 0⟩, ⟨1, 3, 1, 2, 0⟩, ⟨2, 5, 2, 4, 0⟩, ⟨4, 4, 1, 2, 0⟩]

example : (∀ b ∈ stillBars, b.WF) ∧ (∀ b ∈ waveBars, b.WF) := by
  constructor <;> intro b hb <;> simp [stillBars, waveBars] at hb <;> rcases hb with rfl | rfl | rfl | rfl | rfl <;> norm_num [Bar.WF]

/-- The mean of the last two DX values at the last candle of `waveBars`. -/
example : (((ADX 2 2).data (barItem waveBars)).toOption.getD []).map (fun v => (v.plus, v.minus, v.adx)) =
    [(.fin 0, .fin 0, .fin 0), (.fin 100, .fin 0, .fin 50), (.fin 75, .fin 0, .fin 100),
      (.fin 30, .fin 20, .fin 60)] := by decide +kernel

/-- C66 fails: three candles of a strong rise after a still market have DX = 100 each, yet the ADX over two candles stays
at 0, and the directional indicators of the first full period are NaN. -/
theorem C66_refuted : ∃ d : List (ADX.Data (XF ℚ)),
    (ADX 2 2).data (barItem stillBars) = .ok d ∧ (d[1]?).map (·.plus) = some .nan ∧
    (d[4]?).map (·.adx) = some (.fin 0) ∧
    mean ((List.range' 3 2).map (dxAt (bar stillBars) 2 2)) = 100 := by
  refine ⟨((ADX 2 2).data (barItem stillBars)).toOption.getD [], ?_, ?_, ?_, ?_⟩ <;> decide +kernel

/-! ## Vortex -/

/-- Sum of `g` over candle `i` and the `p - 1` before it, the very first candle left out. -/
def moveSum (p i : Nat) (g : Nat → K) : K := ∑ j ∈ Finset.Ico (Max.max 1 (i + 1 - p)) (i + 1), g j

theorem ringSum_fin {p : Nat} (hp : 0 < p) (g : Nat → K) : ∀ i, ringSum p (finF g) i = .fin (moveSum p i g) := by
  have f0 : (fl 0 : XF K) = .fin 0 := by simp
  intro i
  induction i with
  | zero => rw [ringSum, moveSum, Finset.Ico_eq_empty (by omega)]; simp
  | succ i ih =>
    have h1 : moveSum p (i + 1) g + (if p < i + 1 then g (i + 1 - p) else 0) = moveSum p i g + g (i + 1) := by
      rw [moveSum, moveSum, Finset.sum_Ico_succ_top (by omega)]
      split
      · next h =>
        rw [show Max.max 1 (i + 1 + 1 - p) = (i + 1 - p) + 1 by omega, show Max.max 1 (i + 1 - p) = i + 1 - p by omega,
          Finset.sum_eq_sum_Ico_succ_bot (show i + 1 - p < i + 1 by omega)]
        ring
      · next h =>
        rw [show Max.max 1 (i + 1 + 1 - p) = Max.max 1 (i + 1 - p) by omega]
        ring
    rw [ringSum, ih, f0]
    have e : (if p < i + 1 then finF g (i + 1 - p) else XF.fin 0) = XF.fin (if p < i + 1 then g (i + 1 - p) else 0) := by
      split <;> rfl
    rw [e]
    simp only [finF, sub_fin, add_fin, fin_inj]
    linarith

/-- C64: on candles whose close lies between low and high, wherever some candle of the window has a true range above 0,
the vortex indicators are the sums of `|high - previous low|` and `|low - previous high|` over the window, divided by the
sum of the true ranges; both are numbers of at least 0 and together they are at least 1. The first candle has 0 for
both. -/
theorem C64_vortex {period : Int} (hp : 0 < period) {it : Item (XF K)} {bs : List (Bar K)} (hb : Holds it bs)
    (hw : ∀ b ∈ bs, b.WF) {d : List (Vortex.Data (XF K))} (hd : (Vortex period).data it = .ok d) :
    d.length = bs.length ∧ ∀ (i : Nat) (v : Vortex.Data (XF K)), d[i]? = some v →
      let b := bar bs
      (i = 0 → v.plus = .fin 0 ∧ v.minus = .fin 0) ∧
      ((∃ j, 0 < j ∧ j ≤ i ∧ (i : Int) < j + period ∧ 0 < rangeAt b j) → ∃ p m : K, v.plus = .fin p ∧ v.minus = .fin m ∧
        p = moveSum period.toNat i (fun j => |(b j).h - (b (j - 1)).l|) / moveSum period.toNat i (rangeAt b) ∧
        m = moveSum period.toNat i (fun j => |(b j).l - (b (j - 1)).h|) / moveSum period.toNat i (rangeAt b) ∧
        0 ≤ p ∧ 0 ≤ m ∧ 1 ≤ p + m) := by
  obtain ⟨x, b, hx, hbs, hc, h0⟩ := hb.cols₀
  obtain ⟨-, rfl⟩ := yields_inv (Vortex.appends period).yields hx hd
  have eb := bar_eq hbs h0
  have hwf : ∀ j, (b j).WF := by rw [eb]; exact bar_wf hw
  refine ⟨tab_length _ _, fun i v hv => ?_⟩
  rw [← eb]
  intro b'
  have hi : i < bs.length := by simpa using (List.getElem?_eq_some_iff.mp hv).1
  rw [tab_getElem?_lt hi] at hv
  cases hv
  refine ⟨fun h => ?_, fun ⟨j, hj0, hj, hjp, hpos⟩ => ?_⟩
  · subst h
    simp [Vortex.out, viPlus, viMinus]
  · have e1 : vmPlus x = finF fun j => |(b j).h - (b (j - 1)).l| := by
      funext j; rw [vmPlus, hc.hi, hc.lo]; simp only [finF, sub_fin, abs_fin']
    have e2 : vmMinus x = finF fun j => |(b j).l - (b (j - 1)).h| := by
      funext j; rw [vmMinus, hc.hi, hc.lo]; simp only [finF, sub_fin, abs_fin']
    have e3 : vmTR x = finF fun j => wilderRange (b j) (b (j - 1)).c := by
      funext j; rw [vmTR, hc.hi, hc.lo, hc.cl]; simp only [finF, sub_fin, abs_fin', max_fin]; rfl
    have e4 : moveSum period.toNat i (fun j => wilderRange (b j) (b (j - 1)).c) = moveSum period.toNat i (rangeAt b) := by
      refine Finset.sum_congr rfl fun j hj => ?_
      obtain ⟨k, rfl⟩ : ∃ k, j = k + 1 := ⟨j - 1, by have := (Finset.mem_Ico.mp hj).1; omega⟩
      rfl
    have hr : 0 < moveSum period.toNat i (rangeAt b) :=
      lt_of_lt_of_le hpos (Finset.single_le_sum (f := rangeAt b) (fun j _ => rangeAt_nonneg b j)
        (Finset.mem_Ico.mpr ⟨by omega, by omega⟩))
    have hn : ∀ g : Nat → K, (∀ j, 0 ≤ g j) → 0 ≤ moveSum period.toNat i g := fun g hg =>
      Finset.sum_nonneg fun j _ => hg j
    refine ⟨moveSum period.toNat i (fun j => |(b j).h - (b (j - 1)).l|) / moveSum period.toNat i (rangeAt b),
      moveSum period.toNat i (fun j => |(b j).l - (b (j - 1)).h|) / moveSum period.toNat i (rangeAt b),
      ?_, ?_, rfl, rfl, ?_, ?_, ?_⟩
    · show viPlus period.toNat x i = _
      rw [viPlus, if_neg (by omega), e1, e3, ringSum_fin (by omega), ringSum_fin (by omega), e4, div_fin (ne_of_gt hr)]
    · show viMinus period.toNat x i = _
      rw [viMinus, if_neg (by omega), e2, e3, ringSum_fin (by omega), ringSum_fin (by omega), e4, div_fin (ne_of_gt hr)]
    · exact div_nonneg (hn _ fun j => abs_nonneg _) (le_of_lt hr)
    · exact div_nonneg (hn _ fun j => abs_nonneg _) (le_of_lt hr)
    · rw [← add_div, le_div_iff₀ hr, one_mul, moveSum, moveSum, moveSum, ← Finset.sum_add_distrib]
      refine Finset.sum_le_sum fun j hj => ?_
      obtain ⟨k, rfl⟩ : ∃ k, j = k + 1 := ⟨j - 1, by have := (Finset.mem_Ico.mp hj).1; omega⟩
      obtain ⟨-, -, h1, h2⟩ := hwf k
      have h3 : (b (k + 1)).l ≤ (b (k + 1)).h := by obtain ⟨a, c, -, -⟩ := hwf (k + 1); exact le_trans a c
      rw [rangeAt, wilderRange, Nat.add_sub_cancel]
      have a1 := le_abs_self ((b (k + 1)).h - (b k).l)
      have a2 := neg_le_abs ((b (k + 1)).l - (b k).h)
      have a3 := abs_nonneg ((b (k + 1)).h - (b k).l)
      have a4 := abs_nonneg ((b (k + 1)).l - (b k).h)
      refine max_le (by linarith) (max_le (abs_le.mpr ⟨?_, by linarith⟩) (abs_le.mpr ⟨by linarith, ?_⟩))
      · linarith
      · linarith

example : (((Vortex 2).data (barItem waveBars)).toOption.getD []).map (fun v => (v.plus, v.minus)) =
    [(.fin 0, .fin 0), (.fin 1, .fin 0), (.fin (6 / 5), .fin (1 / 5)), (.fin 1, .fin (5 / 6))] := by decide +kernel

/-- On a still market the vortex indicators are NaN: the condition of C64 cannot be left out. -/
theorem C64_still : ∃ d : List (Vortex.Data (XF ℚ)),
    (Vortex 2).data (barItem stillBars) = .ok d ∧ (d[1]?).map (fun v => (v.plus, v.minus)) = some (.nan, .nan) := by
  refine ⟨((Vortex 2).data (barItem stillBars)).toOption.getD [], ?_, ?_⟩ <;> decide +kernel

end Verif.Props
