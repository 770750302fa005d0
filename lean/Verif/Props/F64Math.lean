import Verif.Go.Math64
import Verif.Props.F64Volume

/-!
# Square roots in float64 arithmetic: Bollinger bands, Ulcer index, deviation, rounding (C106-C108)
-/

namespace Verif.Props
open Verif Verif.Klines Verif.Ta Verif.Ind GoFloat

variable [B64.MathLib]

theorem sqrt_eq64 (x : B64) : (GoMath.sqrt x : B64) = B64.sqrt x := rfl

/-- A finite result of `math.Sqrt` is not negative. -/
theorem sqrt_nonneg64 {x : B64} {s : ℚ} (h : (GoMath.sqrt x : B64).val = .fin s) : 0 ≤ s := by
  rw [sqrt_eq64] at h
  cases hx : x.val with
  | fin a =>
    rcases lt_or_ge a 0 with h0 | h0
    · rw [B64.val_sqrt_neg hx h0] at h; cases h
    · rw [B64.val_sqrt hx h0] at h
      cases h
      exact roundMag_nonneg _
  | nan =>
    cases x with
    | nan => cases h
    | inf t => cases t <;> cases hx
    | fin t q hq => cases hx
  | pinf =>
    cases x with
    | nan => cases h
    | inf t => cases t <;> cases h
    | fin t q hq => cases hx
  | ninf =>
    cases x with
    | nan => cases h
    | inf t => cases t <;> cases h
    | fin t q hq => cases hx

/-- **C106 (Boll).** With float64 rounding, whenever middle line and deviation of a record are finite numbers, the
deviation is not negative and the finite outer lines bracket the middle line. Missing: that they are finite; see
`C106_boll_flat_refuted`. -/
theorem C106_boll_order_partial {p : Nat} {pk : Int} {it : Item B64} {d : List (Boll.Data B64)}
    (hd : (Boll p pk).data it = .ok d) {r : Boll.Data B64} (hr : r ∈ d) {m s : ℚ} (hm : r.middle.val = .fin m)
    (hs : r.md.val = .fin s) :
    0 ≤ s ∧ (∀ u, r.upper.val = .fin u → m ≤ u) ∧ ∀ l, r.lower.val = .fin l → l ≤ m := by
  obtain ⟨i, hr⟩ := List.mem_iff_getElem?.mp hr
  obtain ⟨x, hx⟩ := candles_tab it
  obtain ⟨hi, -, rfl⟩ := at64 (Boll.makes p pk).yields hx hd hr
  have h0 : 0 ≤ s := by
    have hs' : (dmaF p (Ind.cl x) i).val = .fin s := hs
    rw [dmaF] at hs'
    split at hs'
    · rw [val_zero64] at hs'; cases hs'; exact le_rfl
    · exact sqrt_nonneg64 hs'
  have hm' : (smaF p (Ind.cl x) i).val = .fin m := hm
  have hs' : (dmaF p (Ind.cl x) i).val = .fin s := hs
  refine ⟨h0, fun u hu => ?_, fun l hl => ?_⟩
  · have hu' : (smaF p (Ind.cl x) i +. dmaF p (Ind.cl x) i).val = .fin u := hu
    rw [B64.val_add hm' hs'] at hu'
    exact round64_mono (round64_rep (B64.val_srep hm)) hu' (by linarith)
  · have hl' : (subF (smaF p (Ind.cl x) i) (dmaF p (Ind.cl x) i)).val = .fin l := hl
    rw [val_subF hm' hs'] at hl'
    exact round64_mono hl' (round64_rep (B64.val_srep hm)) (by linarith)

/-! ## Flat markets -/

omit [B64.MathLib] in
theorem srep_mul_grid {k : ℤ} {e : ℤ} (he : -1074 ≤ 2 * e) (he' : 2 * e ≤ 970) {c : ℕ} (h : c * k ^ 2 ≤ 2 ^ 53) :
    SRep (c * ((k : ℚ) * 2 ^ e * (k * 2 ^ e))) := by
  have : (c : ℚ) * ((k : ℚ) * 2 ^ e * (k * 2 ^ e)) = (c * k ^ 2 : ℤ) * 2 ^ (2 * e) := by
    rw [two_mul e, zpow_add₀ (by norm_num)]
    push_cast
    ring
  rw [this]
  exact srep_scaled (by rw [abs_of_nonneg (by positivity)]; exact h) he he'

theorem bollS_flat {p : Nat} (hp : 1 ≤ p) {k e : ℤ} (he : -1074 ≤ 2 * e) (he' : 2 * e ≤ 970) (hk : p * k ^ 2 ≤ 2 ^ 53)
    {c : Nat → B64} (i : Nat) (h : ∀ j ≤ i, (c j).val = .fin (k * 2 ^ e)) :
    (bollS p c i).val = .fin ((min i (p - 1) : Nat) * ((k : ℚ) * 2 ^ e * (k * 2 ^ e))) := by
  have hle : ∀ m : Nat, m ≤ p → (m : ℤ) * k ^ 2 ≤ 2 ^ 53 := fun m hm =>
    (mul_le_mul_of_nonneg_right (by exact_mod_cast hm) (sq_nonneg k)).trans hk
  set v : ℚ := k * 2 ^ e * (k * 2 ^ e) with hv
  have hsq : ∀ j ≤ i, (c j *. c j).val = .fin v := fun j hj => by
    rw [B64.val_mul (h j hj) (h j hj), ← hv]
    refine round64_rep ?_
    simpa using srep_mul_grid (c := 1) he he' (by simpa using hle 1 hp)
  induction i with
  | zero => simpa [bollS] using val_zero64
  | succ i ih =>
    have ih := ih (fun j hj => h j (by omega)) (fun j hj => hsq j (by omega))
    have ha : (bollS p c i +. c i *. c i).val = .fin ((min i (p - 1) + 1 : Nat) * v) := by
      rw [B64.val_add ih (hsq i (by omega)), show ((min i (p - 1) : Nat) : ℚ) * v + v = (min i (p - 1) + 1 : Nat) * v by
        push_cast; ring]
      exact round64_rep (srep_mul_grid he he' (hle _ (by omega)))
    rw [bollS]
    split
    · next hip => rw [ha, show min i (p - 1) + 1 = min (i + 1) (p - 1) by omega]
    · next hip =>
      rw [B64.val_sub ha (hsq _ (by omega)), show ((min i (p - 1) + 1 : Nat) : ℚ) * v - v = (min i (p - 1) : Nat) * v by
        push_cast; ring, show min i (p - 1) = min (i + 1) (p - 1) by omega]
      exact round64_rep (srep_mul_grid he he' (hle _ (by omega)))

/-- **C106 (Boll, flat market).** If every close is the same number `k 2^e` with `p k² <= 2^53` and
`(p + 1) |k| <= 2^53`, the three lines are that number and the deviation is 0. Missing: prices with more digits; false
for 1.3, see `C106_boll_flat_refuted`. -/
theorem C106_boll_flat_partial {p : Nat} (hp : 1 ≤ p) {pk k e : ℤ} (he : -537 ≤ e) (he' : e ≤ 485)
    (hk : p * k ^ 2 ≤ 2 ^ 53) (hk' : (p + 1) * |k| ≤ 2 ^ 53) (hp' : p ≤ 2 ^ 53) {it : Item B64} {bs : List (Bar ℚ)}
    (hb : Holds64 it bs) (hf : ∀ b ∈ bs, b.c = k * 2 ^ e) {d : List (Boll.Data B64)} (hd : (Boll p pk).data it = .ok d)
    {r : Boll.Data B64} (hr : r ∈ d) :
    r.middle.val = .fin (k * 2 ^ e) ∧ r.md.val = .fin 0 ∧ r.upper.val = .fin (k * 2 ^ e) ∧
      r.lower.val = .fin (k * 2 ^ e) := by
  obtain ⟨i, hr⟩ := List.mem_iff_getElem?.mp hr
  obtain ⟨x, b, hx, hbs, hc, -⟩ := hb.cols
  obtain ⟨hi, -, rfl⟩ := at64 (Boll.makes p pk).yields hx hd hr
  have hcl : ∀ j < bs.length, (Ind.cl x j).val = .fin (k * 2 ^ e) := fun j hj => by
    rw [hc.cl, hf _ (by rw [hbs]; exact mem_tab.mpr ⟨j, hj, rfl⟩)]
  have hrep : SRep ((k : ℚ) * 2 ^ e) := B64.val_srep (hcl i hi)
  -- the middle line
  have hm : (smaF p (Ind.cl x) i).val = .fin (k * 2 ^ e) := by
    have hs := runSum_exact (p := p) (k := fun _ => k) (n := bs.length) (by omega) (by omega) hcl (fun q _ => by
      rw [Finset.sum_const, Nat.card_Ico, nsmul_eq_mul]
      refine le_trans (mul_le_mul_of_nonneg_right ?_ (abs_nonneg k)) hk'
      omega) (i + 1) hi
    rw [Finset.sum_const, Nat.card_Ico, nsmul_eq_mul] at hs
    have hcnt : (if p ≤ i then (p : Int) else (i : Int) + 1) = ((i + 1 - (i + 1 - p) : Nat) : Int) := by split <;> omega
    have hcv : (fl ((i + 1 - (i + 1 - p) : Nat) : Int) : B64).val = .fin ((i + 1 - (i + 1 - p) : Nat) : ℚ) := by
      have := B64.val_fl ((i + 1 - (i + 1 - p) : Nat) : Int) (by rw [abs_of_nonneg (by omega)]; omega)
      simpa using this
    have hne : ((i + 1 - (i + 1 - p) : Nat) : ℚ) ≠ 0 := by
      exact_mod_cast (by omega : i + 1 - (i + 1 - p) ≠ 0)
    have hv : (runSum p (Ind.cl x) (i + 1) /. fl (if p ≤ i then (p : Int) else (i : Int) + 1)).val = .fin (k * 2 ^ e) := by
      rw [hcnt, B64.val_div hs hcv hne]
      convert round64_rep hrep using 2
      push_cast
      field_simp
    rw [smaF, smaFix64 hv, hv]
  have hsq : (smaF p (Ind.cl x) i *. smaF p (Ind.cl x) i).val = .fin (k * 2 ^ e * (k * 2 ^ e)) := by
    rw [B64.val_mul hm hm]
    refine round64_rep ?_
    simpa using srep_mul_grid (c := 1) (by omega) (by omega)
      (le_trans (mul_le_mul_of_nonneg_right (by exact_mod_cast hp) (sq_nonneg k)) hk)
  have hmd : (dmaF p (Ind.cl x) i).val = .fin 0 := by
    rw [dmaF]
    split
    · exact val_zero64
    · next hip =>
      have h1 := bollS_flat hp (by omega) (by omega) hk i fun j hj => hcl j (by omega)
      have hcc : (Ind.cl x i *. Ind.cl x i).val = .fin (k * 2 ^ e * (k * 2 ^ e)) := by
        rw [B64.val_mul (hcl i hi) (hcl i hi), ← B64.val_mul hm hm, hsq]
      have hsum : (bollS p (Ind.cl x) i +. Ind.cl x i *. Ind.cl x i).val =
          .fin ((p : Nat) * ((k : ℚ) * 2 ^ e * (k * 2 ^ e))) := by
        rw [B64.val_add h1 hcc, show min i (p - 1) = p - 1 by omega]
        rw [show ((p - 1 : Nat) : ℚ) * ((k : ℚ) * 2 ^ e * (k * 2 ^ e)) + (k : ℚ) * 2 ^ e * (k * 2 ^ e) =
          (p : Nat) * ((k : ℚ) * 2 ^ e * (k * 2 ^ e)) by rw [Nat.cast_sub hp]; push_cast; ring]
        exact round64_rep (srep_mul_grid (by omega) (by omega) hk)
      have hpv : (fl (p : Int) : B64).val = .fin (p : ℚ) := by
        have := B64.val_fl (p : Int) (by rw [abs_of_nonneg (by omega)]; omega)
        simpa using this
      have hp0 : (p : ℚ) ≠ 0 := by exact_mod_cast (by omega : p ≠ 0)
      have hdiv : ((bollS p (Ind.cl x) i +. Ind.cl x i *. Ind.cl x i) /. fl p).val =
          .fin (k * 2 ^ e * (k * 2 ^ e)) := by
        rw [B64.val_div hsum hpv hp0, mul_div_cancel_left₀ _ hp0]
        exact round64_rep (B64.val_srep hsq)
      have hvar := B64.val_sub hdiv hsq
      rw [sub_self, round64_rep srep_zero] at hvar
      rw [sqrt_eq64, B64.val_sqrt hvar le_rfl]
      have : sqrtMag 0 ≤ 0 := sqrtMag_le rep_zero rep_zero (by norm_num)
      exact congrArg _ (le_antisymm this (roundMag_nonneg _))
  refine ⟨hm, hmd, ?_, ?_⟩
  · show (smaF p (Ind.cl x) i +. dmaF p (Ind.cl x) i).val = _
    rw [B64.val_add hm hmd, add_zero]
    exact round64_rep hrep
  · show (subF (smaF p (Ind.cl x) i) (dmaF p (Ind.cl x) i)).val = _
    rw [val_subF hm hmd, sub_zero]
    exact round64_rep hrep

/-- A market flat at 1.25, period 20. -/
example {d : List (Boll.Data B64)} (hd : (Boll (20 : Nat) 2).data (item64 (List.replicate 30 ⟨1.25, 1.25, 1.25, 1.25, 1⟩)) = .ok d)
    {r : Boll.Data B64} (hr : r ∈ d) : r.upper.val = .fin (5 * 2 ^ (-2 : ℤ)) ∧ r.lower.val = .fin (5 * 2 ^ (-2 : ℤ)) := by
  have h := C106_boll_flat_partial (p := 20) (k := 5) (e := -2) (by norm_num) (by norm_num) (by norm_num) (by norm_num)
    (by norm_num) (by norm_num) (holds_item64 (by decide +kernel)) (by
      intro b hb
      rw [List.eq_of_mem_replicate hb]
      norm_num) hd hr
  exact ⟨by simpa using h.2.2.1, by simpa using h.2.2.2⟩

/-- Any functions for the part of package `math` that is left open; to evaluate programs that do not call them. -/
@[reducible] def stubLib : B64.MathLib := ⟨id, fun x _ => x⟩

theorem bollS_stub (p : Nat) (c : Nat → B64) (i : Nat) : bollS p c i = @bollS B64 (@B64.math64 stubLib) p c i := by
  induction i with
  | zero => rfl
  | succ i ih => rw [bollS, ih]; rfl

/-- A market flat at 1.3 with the default period 20: at the twentieth candle the rounded mean square is smaller than the
rounded square of the mean, `math.Sqrt` of the difference is NaN, and so are both bands. -/
theorem C106_boll_flat_refuted :
    ∃ d r, (Boll 20 2).data (item64 (List.replicate 20 ⟨1.3, 1.3, 1.3, 1.3, 1⟩)) = .ok d ∧ d[19]? = some r ∧
      r.md.val = .nan ∧ r.upper.val = .nan ∧ r.lower.val = .nan := by
  have hx : (item64 (List.replicate 20 ⟨1.3, 1.3, 1.3, 1.3, 1⟩)).candles =
      tab 20 fun _ => candle64 ⟨1.3, 1.3, 1.3, 1.3, 1⟩ := by
    rw [item64, List.map_replicate]; rfl
  refine ⟨_, Boll.out 20 (fun _ => candle64 ⟨1.3, 1.3, 1.3, 1.3, 1⟩) 19,
    ((Boll.makes 20 2).yields _ _ _ hx).1 (Or.inl (by norm_num)), tab_getElem?_lt (by norm_num), ?_⟩
  have hmd : (dmaF 20 (Ind.cl fun _ => candle64 ⟨1.3, 1.3, 1.3, 1.3, 1⟩) 19 : B64) = .nan := by
    rw [dmaF, if_neg (by norm_num), sqrt_eq64, bollS_stub]
    have h : (B64.sqrt ((@bollS B64 (@B64.math64 stubLib) 20 (fun _ => (lit 1.3 : B64)) 19 +. lit 1.3 *. lit 1.3) /.
      fl (20 : Nat) -. smaF 20 (fun _ => (lit 1.3 : B64)) 19 *. smaF 20 (fun _ => (lit 1.3 : B64)) 19)).val = .nan := by
      clear hx
      decide +kernel
    have nan_of : ∀ {y : B64}, y.val = .nan → y = .nan := by
      intro y hy
      cases y with
      | nan => rfl
      | inf t => cases t <;> cases hy
      | fin t q hq => cases hy
    exact nan_of h
  have add_nan : ∀ y : B64, y +. B64.nan = .nan := fun y => by cases y <;> rfl
  refine ⟨?_, ?_, ?_⟩
  · show (dmaF 20 _ 19 : B64).val = _
    rw [hmd]; rfl
  · show (smaF 20 _ 19 +. dmaF 20 (Ind.cl fun _ => candle64 ⟨1.3, 1.3, 1.3, 1.3, 1⟩) 19 : B64).val = _
    rw [hmd, add_nan]; rfl
  · show (subF (smaF 20 _ 19) (dmaF 20 (Ind.cl fun _ => candle64 ⟨1.3, 1.3, 1.3, 1.3, 1⟩) 19) : B64).val = _
    rw [hmd, subF, show (B64.nan *. fl (-1) : B64) = .nan from rfl, add_nan]; rfl

/-! ## Ulcer index -/

omit [B64.MathLib] in
/-- A drawdown divided by the high it is measured from. -/
theorem drawdown64 {x y : B64} {c m : ℚ} (hx : x.val = .fin c) (hy : y.val = .fin m) (h0 : 0 ≤ c) (h1 : c ≤ m) :
    ∃ r, (safeDiv (subF x y) y).val = .fin r ∧ -1 ≤ r ∧ r ≤ 0 := by
  have hm := B64.val_srep hy
  obtain ⟨s, hs, s0, s1⟩ := round64_between hm.neg srep_zero (q := c - m) (by linarith) (by linarith)
  have hsub : (subF x y).val = .fin s := (val_subF hx hy).trans hs
  rw [safeDiv]
  by_cases hb : m = 0
  · subst hb
    obtain rfl : s = 0 := by linarith
    have hn : isNaN (subF x y /. y) = true := by rw [B64.isNaN_val, B64.val_div_zero hsub hy, if_pos rfl]
    rw [hn, Bool.true_or, if_pos rfl]
    exact ⟨0, val_zero64, by norm_num, le_rfl⟩
  · have hmp : 0 < m := lt_of_le_of_ne (h0.trans h1) (Ne.symm hb)
    obtain ⟨r, hr, h2, h3⟩ := div64 hsub hy hb srep_one.neg srep_zero (by rw [le_div_iff₀ hmp]; linarith)
      (div_nonpos_of_nonpos_of_nonneg s1 hmp.le)
    have hn : isNaN (subF x y /. y) = false := by rw [← Bool.not_eq_true, B64.isNaN_val, hr]; simp
    have hi : isInf (subF x y /. y) = false := by rw [← Bool.not_eq_true, B64.isInf_val, hr]; simp
    rw [hn, hi, Bool.or_false, if_neg (by simp)]
    exact ⟨r, hr, h2, h3⟩

/-- **C107 (UlcerIndex).** With float64 rounding the index is a finite number between 0 and 100, for all finite closes
`>= 0` and all periods up to `2^39`. -/
theorem C107_ulcer {p : Nat} (hp : 1 ≤ p) (hp' : p ≤ 2 ^ 39) {it : Item B64} {bs : List (Bar ℚ)} (hb : Holds64 it bs)
    (hw : ∀ b ∈ bs, 0 ≤ b.c) {d : List (Rec B64)} (hd : (Ulcer p).data it = .ok d) {r : Rec B64} (hr : r ∈ d) :
    ∃ v, r.value.val = .fin v ∧ 0 ≤ v ∧ v ≤ 100 := by
  obtain ⟨i, hr⟩ := List.mem_iff_getElem?.mp hr
  obtain ⟨x, b, hx, hbs, hc, hb0⟩ := hb.cols
  obtain ⟨hi, -, rfl⟩ := at64 (Ulcer.appends p).yields hx hd hr
  have hw' : ∀ j, 0 ≤ (b j).c := fun j => by
    by_cases hj : j < bs.length
    · exact hw _ (by rw [hbs]; exact mem_tab.mpr ⟨j, hj, rfl⟩)
    · rw [hb0 j (by omega)]
  have hdd : ∀ j, ∃ v, (ddF p x j *. ddF p x j).val = .fin v ∧ 0 ≤ v ∧ v ≤ 10000 := by
    intro j
    obtain ⟨m, hm, hmg⟩ := maxF64 (p := p) (by omega) j fun q _ => hc.cl q
    obtain ⟨q, hq, q0, q1⟩ := drawdown64 (hc.cl j) hm (hw' j) (hmg.2 ⟨j, by omega, le_rfl, rfl⟩)
    obtain ⟨t, ht, t0, t1⟩ := mul64 hq (B64.val_fl 100 (by norm_num)) srep_hundred.neg srep_zero
      (by push_cast; linarith) (by push_cast; linarith)
    have ht' : (ddF p x j).val = .fin t := ht
    refine mul64 ht' ht' srep_zero (by simpa using srep_int (n := 10000) (by norm_num)) (mul_self_nonneg t) ?_
    nlinarith
  choose v hv v0 v1 using hdd
  obtain ⟨s, hs, s0, s1⟩ := emaF64 hp (by omega) (e := 0) (by norm_num) (by norm_num) (lo := 0) (hi := 10000)
    (by norm_num) (by rw [abs_of_nonneg (by norm_num)]; omega) i (fun j _ => hv j)
    (fun j _ => by simpa using ⟨v0 j, v1 j⟩)
  simp only [Int.cast_zero, zpow_zero, mul_one, Int.cast_ofNat] at s0 s1
  have hrep : Rep s := by have := B64.val_srep hs; rwa [SRep, abs_of_nonneg s0] at this
  refine ⟨sqrtMag s, B64.val_sqrt hs s0, roundMag_nonneg _, ?_⟩
  have h100 : Rep 100 := by simpa using rep_nat (n := 100) (by norm_num)
  exact sqrtMag_le hrep h100 (by linarith)

example : Holds64 (item64 bars64) bars64 ∧ (∀ b ∈ bars64, 0 ≤ b.c) ∧
    ∃ d, (Ulcer 2).data (item64 bars64) = .ok d ∧ d.length = 3 := by
  refine ⟨bars64_holds, fun b hb => (bars64_wf b hb).1.trans (bars64_wf b hb).2.1, ?_⟩
  obtain ⟨x, b, hx, -⟩ := bars64_holds.cols
  exact ⟨_, ((Ulcer.appends 2).yields _ _ _ hx).1 (Or.inl (by norm_num)), by simp [bars64]⟩

/-! ## Money flow index -/

omit [B64.MathLib] in
theorem eq_of_val64 {x y : B64} {a : ℚ} (hx : x.val = .fin a) (hy : y.val = .fin a) (h : a ≠ 0) : x = y := by
  obtain ⟨s, q, hq, rfl, e1⟩ := B64.val_fin_iff.mp hx
  obtain ⟨t, q', hq', rfl, e2⟩ := B64.val_fin_iff.mp hy
  have h1 := hq.nonneg
  have h2 := hq'.nonneg
  cases s <;> cases t <;> simp only [B64.signed, Bool.false_eq_true, if_false, if_true] at e1 e2
  · obtain rfl : q = q' := by linarith
    rfl
  · exact absurd (by linarith : a = 0) h
  · exact absurd (by linarith : a = 0) h
  · obtain rfl : q = q' := by linarith
    rfl

/-- Six candles whose volume stops. -/
def stopBars : List (Bar ℚ) :=
  [(2.3, 1.8, 2.0, 1.4), (5.3, 4.6, 4.8, 1.4), (5.199999999999999, 4.3999999999999995, 4.6, 1.1),
    (3.3000000000000003, 2.7, 3.1, 0.6), (3.3000000000000003, 3.1, 3.1, 0), (4.8, 4.6000000000000005, 4.7, 0)].map
    fun (h, l, c, v) => ⟨c, h, l, c, v⟩

/-- **C107 (MoneyFlowIndex).** In float64 the index leaves its range: well-formed candles with decimal prices, and the
value at a candle whose window has no volume is 200. (Of `math.Pow` only `Pow(-1, -1) = -1` is used.) -/
theorem C107_mfi_refuted (hpow : (B64.MathLib.pow (fl (-1)) (fl (-1))).val = .fin (-1)) :
    ∃ d r, (MFI 2).data (item64 stopBars) = .ok d ∧ d[5]? = some r ∧ r.value.val = .fin 200 := by
  obtain ⟨x, hx⟩ : ∃ x : Nat → Candle B64, x = fun j => ((stopBars.map candle64)[j]?).getD (Candle.zero 0) := ⟨_, rfl⟩
  have hx' : (item64 stopBars).candles = tab 6 x := by rw [hx]; rfl
  refine ⟨_, MFI.out 2 x 5, ((MFI.appends 2).yields _ _ _ hx').1 (Or.inl (by norm_num)), tab_getElem?_lt (by norm_num), ?_⟩
  have key : (safeDiv (runSum 2 (fun j => if flowF x j >. fl 0 then flowF x j else fl 0) (5 + 1))
      (runSum 2 (fun j => (if flowF x j <. fl 0 then flowF x j else fl 0) *. fl (-1)) (5 + 1)) +. fl 1 : B64) =
      fl (-1) := by
    refine eq_of_val64 (a := -1) ?_ (by simpa using B64.val_fl (-1) (by norm_num)) (by norm_num)
    have h : (safeDiv
        (runSum 2 (fun j => if @flowF B64 (@B64.math64 stubLib) (fun j => ((stopBars.map candle64)[j]?).getD (Candle.zero 0)) j >. fl 0
          then @flowF B64 (@B64.math64 stubLib) (fun j => ((stopBars.map candle64)[j]?).getD (Candle.zero 0)) j else fl 0) (5 + 1))
        (runSum 2 (fun j => (if @flowF B64 (@B64.math64 stubLib) (fun j => ((stopBars.map candle64)[j]?).getD (Candle.zero 0)) j <. fl 0
          then @flowF B64 (@B64.math64 stubLib) (fun j => ((stopBars.map candle64)[j]?).getD (Candle.zero 0)) j else fl 0) *. fl (-1)) (5 + 1)) +.
        fl 1 : B64).val = .fin (-1) := by
      clear hx' hx x hpow
      decide +kernel
    rw [hx]
    exact h
  show (mfiF 2 x 5).val = _
  rw [mfiF, key]
  obtain ⟨u, hu, u0, u1⟩ := mul64 hpow (B64.val_fl (-100) (by norm_num)) srep_hundred srep_hundred (by norm_num) (by norm_num)
  obtain rfl : u = 100 := le_antisymm u1 u0
  have h200 : SRep 200 := by simpa using srep_int (n := 200) (by norm_num)
  obtain ⟨w, hw, w0, w1⟩ := add64 hu (B64.val_fl 100 (by norm_num)) h200 h200 (by norm_num) (by norm_num)
  obtain rfl : w = 200 := le_antisymm w1 w0
  exact hw

/-! ## Standard deviation -/

omit [B64.MathLib] in
theorem fold_bound64 {f : B64 → B64} {lo hi : ℤ} {e : ℤ} (he : -1074 ≤ e) (he' : e ≤ 970)
    {xs : List B64} (hf : ∀ x ∈ xs, ∃ v, (f x).val = .fin v ∧ lo * 2 ^ e ≤ v ∧ v ≤ hi * 2 ^ e) {k : Nat} {z : B64}
    (hz : ∃ v, z.val = .fin v ∧ k * lo * 2 ^ e ≤ v ∧ v ≤ k * hi * 2 ^ e)
    (hk : (k + xs.length) * max |lo| |hi| ≤ 2 ^ 53) :
    ∃ v, (xs.foldl (fun s x => s +. f x) z).val = .fin v ∧
      (k + xs.length : Nat) * lo * 2 ^ e ≤ v ∧ v ≤ (k + xs.length : Nat) * hi * 2 ^ e := by
  induction xs generalizing k z with
  | nil => simpa using hz
  | cons x xs ih =>
    obtain ⟨u, hu, u0, u1⟩ := hf x (by simp)
    obtain ⟨v, hv, v0, v1⟩ := hz
    have hbound : ∀ b : ℤ, |b| ≤ max |lo| |hi| → SRep (((k + 1 : Nat) : ℤ) * b * 2 ^ e : ℚ) := by
      intro b hb
      rw [← Int.cast_mul]
      refine srep_scaled ?_ he he'
      rw [abs_mul, Nat.abs_cast]
      refine le_trans (mul_le_mul (?_ : ((k + 1 : Nat) : ℤ) ≤ k + (x :: xs).length) hb (abs_nonneg _) (by positivity)) hk
      rw [List.length_cons]; push_cast; omega
    obtain ⟨w, hw, w0, w1⟩ := add64 hv hu (hbound lo (le_max_left _ _)) (hbound hi (le_max_right _ _))
      (by push_cast; linarith) (by push_cast; linarith)
    have := ih (fun y hy => hf y (by simp [hy])) (k := k + 1) (z := z +. f x) ⟨w, hw, by push_cast at *; linarith, by push_cast at *; linarith⟩
      (by rw [List.length_cons] at hk; push_cast at *; rw [add_assoc, add_comm (1 : ℤ)]; exact hk)
    simpa [add_assoc, add_comm, add_left_comm] using this

/-- **C108 (SD).** For between 1 and `2^50` values of magnitude at most `2^e` the float64 standard deviation is a finite
number between 0 and `2^(e+1)`; never NaN, in contrast to the one-pass formula of `Boll` (C106). -/
theorem C108_sd {e : ℤ} (he : -500 ≤ e) (he' : e ≤ 400) {xs : List B64} {as : List ℚ} (hv : Vals xs as) (hn : 1 ≤ as.length)
    (hn' : as.length ≤ 2 ^ 50) (hb : ∀ a ∈ as, |a| ≤ 2 ^ e) :
    ∃ s, (SD xs).val = .fin s ∧ 0 ≤ s ∧ s ≤ 2 ^ (e + 1) := by
  have hl : xs.length = as.length := by simpa using congrArg List.length hv
  have hx : ∀ x ∈ xs, ∃ v, x.val = .fin v ∧ (-1 : ℤ) * 2 ^ e ≤ v ∧ v ≤ (1 : ℤ) * 2 ^ e := by
    intro x hx
    have : x.val ∈ as.map XF.fin := by rw [← hv]; exact List.mem_map_of_mem hx
    obtain ⟨a, ha, hax⟩ := List.mem_map.mp this
    have := abs_le.mp (hb a ha)
    exact ⟨a, hax.symm, by push_cast; linarith [this.1], by push_cast; linarith [this.2]⟩
  obtain ⟨n, hnl⟩ : ∃ n : Nat, n = xs.length := ⟨_, rfl⟩
  have hn1 : 1 ≤ n := by omega
  have hnq : (1 : ℚ) ≤ n := by exact_mod_cast hn1
  have hfl : (fl (xs.length : Int) : B64).val = .fin (n : ℚ) := by
    rw [← hnl]
    have := B64.val_fl (n : Int) (by rw [Nat.abs_cast]; omega)
    simpa using this
  obtain ⟨S, hS, S0, S1⟩ := fold_bound64 (f := id) (lo := -1) (hi := 1) (e := e) (k := 0) (by omega) (by omega)
    hx ⟨0, val_zero64, by simp, by simp⟩ (by rw [← hnl]; norm_num; omega)
  rw [← hnl] at S0 S1
  push_cast at S0 S1
  have h2e : (0 : ℚ) < 2 ^ e := zpow_pos (by norm_num) e
  have r1 : SRep ((1 : ℤ) * 2 ^ e) := srep_scaled (by norm_num) (by omega) (by omega)
  obtain ⟨m, hm, m0, m1⟩ := div64 hS hfl (by linarith) r1.neg r1
    (by rw [le_div_iff₀ (by linarith)]; push_cast; linarith)
    (by rw [div_le_iff₀ (by linarith)]; push_cast; linarith)
  push_cast at m0 m1
  have r2 : SRep ((2 : ℤ) * 2 ^ e) := srep_scaled (by norm_num) (by omega) (by omega)
  have r4 : SRep ((4 : ℤ) * 2 ^ (2 * e)) := srep_scaled (by norm_num) (by omega) (by omega)
  have e2 : (2 : ℚ) ^ (2 * e) = 2 ^ e * 2 ^ e := by rw [two_mul, zpow_add₀ (by norm_num)]
  have hsq : ∀ x ∈ xs, ∃ v, ((x -. (xs.foldl (fun s x => s +. x) (fl 0) /. fl xs.length)) *.
      (x -. (xs.foldl (fun s x => s +. x) (fl 0) /. fl xs.length))).val = .fin v ∧
      ((0 : ℤ) : ℚ) * 2 ^ (2 * e) ≤ v ∧ v ≤ (4 : ℤ) * 2 ^ (2 * e) := by
    intro x hx'
    obtain ⟨v, hv, v0, v1⟩ := hx x hx'
    push_cast at v0 v1
    obtain ⟨t, ht, t0, t1⟩ := sub64 hv hm r2.neg r2 (by push_cast; linarith) (by push_cast; linarith)
    push_cast at t0 t1
    obtain ⟨q, hq, q0, q1⟩ := mul64 ht ht srep_zero r4 (mul_self_nonneg t) (by push_cast; rw [e2]; nlinarith)
    exact ⟨q, hq, by simpa using q0, q1⟩
  obtain ⟨Q, hQ, Q0, Q1⟩ := fold_bound64 (lo := 0) (hi := 4) (e := 2 * e) (k := 0) (by omega) (by omega)
    hsq ⟨0, val_zero64, by simp, by simp⟩ (by rw [← hnl]; norm_num; omega)
  rw [← hnl] at Q0 Q1
  push_cast at Q0 Q1
  obtain ⟨V, hV, V0, V1⟩ := div64 hQ hfl (by linarith) srep_zero r4 (div_nonneg (by linarith) (by linarith))
    (by rw [div_le_iff₀ (by linarith)]; push_cast; linarith)
  push_cast at V1
  have hrep : Rep V := by have := B64.val_srep hV; rwa [SRep, abs_of_nonneg V0] at this
  refine ⟨sqrtMag V, B64.val_sqrt hV V0, roundMag_nonneg _, ?_⟩
  have hr : Rep (2 ^ (e + 1)) := by simpa using rep_scaled (n := 1) (e := e + 1) (by norm_num) (by omega) (by omega)
  refine sqrtMag_le hrep hr ?_
  rw [zpow_add₀ (by norm_num), zpow_one, mul_pow, sq, ← e2]
  linarith

/-- The flat market on which the bands of `Boll` are NaN has deviation 0. -/
example : ∃ s, (SD (List.replicate 20 (lit 1.3 : B64))).val = .fin s ∧ 0 ≤ s ∧ s ≤ 2 ^ ((1 : ℤ) + 1) := by
  refine C108_sd (e := 1) (as := List.replicate 20 (5854679515581645 / 2 ^ 52)) (by norm_num) (by norm_num)
    (by decide +kernel) (by simp) (by simp) ?_
  intro a ha
  rw [List.eq_of_mem_replicate ha]
  norm_num

/-! ## RoundDigits -/

/-- **C108 (RoundDigits).** Decimal rounding in float64 may go to the farther neighbour: `2.675` is stored as a number
below 2.675, but `RoundDigits` gives the float64 next to 2.68, not that next to 2.67. (Of `math.Pow` only
`Pow(10, 2) = 100` is used.) -/
theorem C108_round_digits_refuted (hpow : B64.MathLib.pow (fl 10) (fl 2) = fl 100) :
    ∃ v r, (lit 2.675 : B64).val = .fin v ∧ (RoundDigits (lit 2.675 : B64) 2).val = .fin r ∧
      (lit 2.68 : B64).val = .fin r ∧ v < 2.675 ∧ v - 2.67 < r - v := by
  refine ⟨3011782250804019 / 2 ^ 50, 6034823500676465 / 2 ^ 51, by clear hpow; decide +kernel, ?_, by clear hpow; decide +kernel,
    by norm_num, by norm_num⟩
  have e : RoundDigits (lit 2.675 : B64) 2 = B64.round (lit 2.675 *. fl 100) /. fl 100 := by
    rw [← hpow]; rfl
  rw [e]
  clear e hpow
  decide +kernel

omit [B64.MathLib] in
theorem rep_round {q : ℚ} (h : Rep q) : Rep (⌊q + 1 / 2⌋ : ℤ) := by
  have h0 := h.nonneg
  obtain ⟨⟨m, e, hm, he, hq⟩, hmax⟩ := h
  rcases le_or_gt 0 e with h1 | h1
  · obtain ⟨k, rfl⟩ := Int.eq_ofNat_of_zero_le h1
    have hz : q = ((m * 2 ^ k : ℕ) : ℤ) := by rw [hq]; push_cast; rfl
    have hf : ⌊q + 1 / 2⌋ = ((m * 2 ^ k : ℕ) : ℤ) := by
      rw [hz, Int.floor_intCast_add, show ⌊(1 / 2 : ℚ)⌋ = 0 by norm_num, add_zero]
    rw [hf, ← hz]
    exact ⟨⟨m, k, hm, he, hq⟩, hmax⟩
  · have h2 : (2 : ℚ) ^ e ≤ 1 := by simpa using zpow_le_zpow_right₀ (by norm_num : (1 : ℚ) ≤ 2) h1.le
    have hm' : (m : ℚ) ≤ 2 ^ 53 - 1 := by
      have : m + 1 ≤ 2 ^ 53 := hm
      have : ((m + 1 : ℕ) : ℚ) ≤ ((2 ^ 53 : ℕ) : ℚ) := Nat.cast_le.mpr this
      push_cast at this
      linarith
    have hq1 : q ≤ 2 ^ 53 - 1 := by
      rw [hq]
      exact le_trans (mul_le_of_le_one_right (Nat.cast_nonneg _) h2) hm'
    obtain ⟨n, hn⟩ := Int.eq_ofNat_of_zero_le (Int.floor_nonneg.mpr (by linarith : 0 ≤ q + 1 / 2))
    have hle := Int.floor_le (q + 1 / 2)
    rw [hn] at hle ⊢
    have : (n : ℚ) ≤ ((2 ^ 53 : ℕ) : ℚ) := by
      push_cast at hle ⊢
      linarith
    simpa using rep_nat (Nat.cast_le.mp this)

omit [B64.MathLib] in
/-- `math.Round` is exact on all finite values. -/
theorem val_round64 {x : B64} {a : ℚ} (hx : x.val = .fin a) :
    x.round.val = .fin (if a < 0 then -⌊-a + 1 / 2⌋ else ⌊a + 1 / 2⌋ : ℤ) := by
  obtain ⟨s, q, hq, rfl, rfl⟩ := B64.val_fin_iff.mp hx
  have hr := rep_round hq
  have e : roundMag (⌊q + 1 / 2⌋ : ℤ) = (⌊q + 1 / 2⌋ : ℤ) := roundMag_rep hr
  have h : roundMag (⌊q + 1 / 2⌋ : ℤ) ≤ maxFinite := by rw [e]; exact hr.2
  rw [B64.round, B64.ofMag, dif_pos h]
  show XF.fin (B64.signed s (roundMag (⌊q + 1 / 2⌋ : ℤ))) = _
  rw [e]
  have h0 := hq.nonneg
  cases s
  · simp [B64.signed, not_lt.mpr h0]
  · rcases h0.eq_or_lt with rfl | h0
    · simp [B64.signed]; norm_num
    · simp [B64.signed, h0]

/-- **C108 (RoundDigits).** Rounding to whole numbers is exact: for every finite value the result is the nearest integer,
halves away from 0. (Of `math.Pow` only `Pow(10, 0) = 1` is used.) With other numbers of digits the product with
`10^digits` is itself rounded: see `C108_round_neighbour` for what holds then. -/
theorem C108_round_whole (hpow : B64.MathLib.pow (fl 10) (fl 0) = fl 1) {x : B64} {a : ℚ} (hx : x.val = .fin a) :
    ∃ r : ℤ, (RoundDigits x 0).val = .fin r ∧ |(r : ℚ) - a| ≤ 1 / 2 ∧ (|(r : ℚ) - a| = 1 / 2 → |a| < |(r : ℚ)|) := by
  have h1 : (fl 1 : B64).val = .fin 1 := by simpa using B64.val_fl 1 (by norm_num)
  have e : RoundDigits x 0 = B64.round (x *. fl 1) /. fl 1 := by
    rw [← hpow]; rfl
  have hm : (x *. fl 1).val = .fin a := by
    rw [B64.val_mul hx h1, mul_one]
    exact round64_rep (B64.val_srep hx)
  have hr := val_round64 hm
  refine ⟨if a < 0 then -⌊-a + 1 / 2⌋ else ⌊a + 1 / 2⌋, ?_, ?_⟩
  · rw [e, B64.val_div hr h1 one_ne_zero, div_one]
    exact round64_rep (B64.val_srep hr)
  · split_ifs with h
    · have l1 := Int.floor_le (-a + 1 / 2)
      have l2 := Int.lt_floor_add_one (-a + 1 / 2)
      push_cast
      generalize ((⌊-a + 1 / 2⌋ : ℤ) : ℚ) = r at *
      refine ⟨abs_le.mpr ⟨by linarith, by linarith⟩, fun h2 => ?_⟩
      rw [abs_neg, abs_of_neg h]
      refine lt_of_lt_of_le ?_ (le_abs_self r)
      rcases (abs_eq (by norm_num)).mp h2 with h3 | h3 <;> linarith
    · have l1 := Int.floor_le (a + 1 / 2)
      have l2 := Int.lt_floor_add_one (a + 1 / 2)
      generalize ((⌊a + 1 / 2⌋ : ℤ) : ℚ) = r at *
      refine ⟨abs_le.mpr ⟨by linarith, by linarith⟩, fun h2 => ?_⟩
      rw [abs_of_nonneg (not_lt.mp h)]
      refine lt_of_lt_of_le ?_ (le_abs_self r)
      rcases (abs_eq (by norm_num)).mp h2 with h3 | h3 <;> linarith

/-- A library with the two powers of ten the theorems of this section ask for. -/
@[reducible] def tenLib : B64.MathLib := ⟨id, fun _ y => if y.val = .fin 0 then fl 1 else fl 100⟩

/-- A half is rounded away from 0. -/
example : ∃ r : ℤ, (@RoundDigits B64 (@B64.math64 tenLib) (lit (-2.5)) 0).val = .fin r ∧ |(r : ℚ) - -2.5| ≤ 1 / 2 ∧
    (|(r : ℚ) - -2.5| = 1 / 2 → |(-2.5 : ℚ)| < |(r : ℚ)|) :=
  @C108_round_whole tenLib (if_pos (by simpa using B64.val_fl 0 (by norm_num))) (lit (-2.5)) (-2.5) (by decide +kernel)

example : @B64.MathLib.pow tenLib (fl 10) (fl 2) = fl 100 :=
  if_neg (by rw [show (fl 2 : B64).val = .fin 2 by simpa using B64.val_fl 2 (by norm_num)]; simp)

end Verif.Props
