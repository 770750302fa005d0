import Verif.Props.TickLines

/-!
# Lines that weigh volume, and the indices of deviation and strength, after an uptick (C127)
-/

set_option linter.unusedSectionVars false
set_option linter.unusedVariables false

namespace Verif.Props
open Verif Verif.Klines Verif.Ta Verif.Ind GoFloat XF

variable {K : Type} [Field K] [LinearOrder K] [IsStrictOrderedRing K]

/-- The candle closes within its range and its volume is not negative. -/
abbrev Traded (b : Bar K) : Prop := CloseInside b ∧ 0 ≤ b.v

section volume
variable {n : Nat} {x y : Nat → Candle (XF K)} {b b' : Nat → Bar K}

theorem psum_le_of {a : Nat → K} {i k : Nat} (h : ∀ j < k, 0 ≤ a j) (hik : i ≤ k) : psum a i ≤ psum a k := by
  induction k with
  | zero => rw [Nat.le_zero.mp hik]
  | succ k ih =>
    rcases Nat.lt_or_ge i (k + 1) with h1 | h1
    · rw [psum_succ]
      have := ih (fun j hj => h j (by omega)) (by omega)
      have := h k (by omega)
      linarith
    · rw [show i = k + 1 by omega]

/-- The quotient of two running sums of which the numerator ends with a raised value. -/
theorem quotient_rises {a a' w w' : Nat → K} {d : K} (h : Nudges n a a' d) (hd : 0 ≤ d) (hw : ∀ j ≤ n, 0 ≤ w j)
    (hw' : ∀ j ≤ n, w' j = w j) (p : Nat) : ∃ e, 0 ≤ e ∧
      Nudged n (fun i => safeDiv (runSum p (finF a) (i + 1)) (runSum p (finF w) (i + 1)))
        (fun i => safeDiv (runSum p (finF a') (i + 1)) (runSum p (finF w') (i + 1))) e := by
  by_cases hp : p = 0
  · subst hp
    refine ⟨0, le_rfl, fun _ => 0, fun _ => 0, fun j _ => ?_, fun j _ => ?_, fun _ _ => rfl, (add_zero _).symm⟩ <;>
    · beta_reduce; rw [runSum_fin, runSum_fin, safeDiv_fin_eq]; simp
  refine ⟨d / (psum w (n + 1) - psum w (n + 1 - p)), div_nonneg hd (sub_nonneg.mpr (psum_le_of (fun j hj => hw j (by omega))
    (by omega))), fun i => (psum a (i + 1) - psum a (i + 1 - p)) / (psum w (i + 1) - psum w (i + 1 - p)),
    fun i => (psum a' (i + 1) - psum a' (i + 1 - p)) / (psum w (i + 1) - psum w (i + 1 - p)), fun j hj => ?_, fun j hj => ?_,
    fun j hj => ?_, ?_⟩
  · beta_reduce; rw [runSum_fin, runSum_fin, safeDiv_fin_eq]
  · beta_reduce
    rw [runSum_fin, runSum_fin, safeDiv_fin_eq, psum_same (k := j + 1) fun l hl => hw' l (by omega),
      psum_same (k := j + 1 - p) fun l hl => hw' l (by omega)]
  · rw [psum_same (a' := a') (a := a) (k := j + 1) fun l hl => h.same l (by omega),
      psum_same (a' := a') (a := a) (k := j + 1 - p) fun l hl => h.same l (by omega)]
  · rw [h.psum, psum_same (a' := a') (a := a) (k := n + 1 - p) fun l hl => h.same l (by omega)]; ring

theorem TickB.v_eq (hT : TickB n b b') (j : Nat) (hj : j ≤ n) : (b' j).v = (b j).v := by
  rcases Nat.lt_or_ge j n with h | h
  · rw [hT.same j h]
  · rw [show j = n by omega, hT.v]

/-- Where the candle closes between its low (−1) and its high (1). -/
theorem TickB.spot (hT : TickB n b b') (hw : CloseInside (b n)) :
    ((b n).c - (b n).l - ((b n).h - (b n).c)) / ((b n).h - (b n).l) ≤
      ((b' n).c - (b' n).l - ((b' n).h - (b' n).c)) / ((b' n).h - (b' n).l) := by
  have hc := hT.c
  have hh := hT.h_le
  have hcl := hT.c_le
  have h1 := hw.1
  have h2 := hw.2
  rw [hT.l]
  rcases eq_or_lt_of_le (h1.trans h2) with e | e
  · rw [← e, sub_self, div_zero]
    have ec : (b n).c = (b n).l := le_antisymm (h2.trans e.ge) h1
    rcases max_choice (b n).h (b' n).c with k | k
    · rw [hT.h, k, ← e, sub_self, div_zero]
    · rw [hT.h, k]; exact div_nonneg (by linarith) (by linarith)
  · have k := place_le hc h1 h2 (by
      rcases max_choice (b n).h (b' n).c with k | k
      · exact Or.inl (hT.h.trans k)
      · exact Or.inr ⟨hh, hT.h.trans k⟩)
    have r1 : (b n).h - (b n).l ≠ 0 := by intro h0; linarith
    have r2 : (b' n).h - (b n).l ≠ 0 := by intro h0; linarith
    have e1 : ((b n).c - (b n).l - ((b n).h - (b n).c)) / ((b n).h - (b n).l) = 2 * (((b n).c - (b n).l) / ((b n).h - (b n).l)) - 1 := by
      field_simp; ring
    have e2 : ((b' n).c - (b n).l - ((b' n).h - (b' n).c)) / ((b' n).h - (b n).l) =
        2 * (((b' n).c - (b n).l) / ((b' n).h - (b n).l)) - 1 := by
      field_simp; ring
    rw [e1, e2]; linarith

theorem TickB.inside (hT : TickB n b b') (hw : ∀ j < n + 1, CloseInside (b j)) : ∀ j < n + 1, CloseInside (b' j) := by
  intro j hj
  rcases Nat.lt_or_ge j n with h | h
  · rw [hT.same j h]; exact hw j hj
  · have e : j = n := by omega
    subst e
    exact ⟨by rw [hT.l]; exact (hw j hj).1.trans hT.c, hT.c_le⟩

theorem TickB.obv (hC : Cols (n + 1) x b) (hC' : Cols (n + 1) y b') (hT : TickB n b b') (hv : 0 ≤ (b n).v) :
    ∃ e, 0 ≤ e ∧ Nudged n (obvF x) (obvF y) e := by
  have f0 : (fl 0 : XF K) = .fin 0 := by simp
  have key : ∀ i ≤ n, ∃ a a', obvF x i = .fin a ∧ obvF y i = .fin a' ∧ (i < n → a' = a) ∧ a ≤ a' := by
    intro i hi
    induction i with
    | zero => exact ⟨0, 0, by rw [obvF, f0], by rw [obvF, f0], fun _ => rfl, le_rfl⟩
    | succ k ih =>
      obtain ⟨a, a', h1, h2, h3, -⟩ := ih (by omega)
      obtain rfl := h3 (by omega)
      rw [obvF, obvF, h1, h2, hC.cl, hC'.cl, hC.vo, hC'.vo]
      simp only [finF, GoFloat.gt, lt_fin, eq_fin, add_fin, sub_fin, decide_eq_true_eq]
      rw [hT.same k (by omega), hT.v_eq _ hi]
      rcases Nat.lt_or_ge (k + 1) n with h | h
      · rw [hT.same _ h]
        rcases lt_trichotomy (b k).c (b (k + 1)).c with h | h | h
        · exact ⟨_, _, if_pos h, if_pos h, fun _ => rfl, le_rfl⟩
        · exact ⟨a', a', by simp [h], by simp [h], fun _ => rfl, le_rfl⟩
        · exact ⟨_, _, by rw [if_neg (not_lt.mpr h.le), if_pos h], by rw [if_neg (not_lt.mpr h.le), if_pos h], fun _ => rfl, le_rfl⟩
      · have e : n = k + 1 := by omega
        subst e
        have hc := hT.c
        rcases lt_trichotomy (b k).c (b (k + 1)).c with h | h | h
        · exact ⟨_, _, if_pos h, if_pos (h.trans_le hc), fun h => absurd h (lt_irrefl _), le_rfl⟩
        · rcases eq_or_lt_of_le (h ▸ hc) with h' | h'
          · exact ⟨a', a', by simp [h], by simp [h'], fun _ => rfl, le_rfl⟩
          · exact ⟨a', _, by simp [h], if_pos h', fun h => absurd h (lt_irrefl _), by linarith⟩
        · rcases lt_trichotomy (b k).c (b' (k + 1)).c with h' | h' | h'
          · exact ⟨_, _, by rw [if_neg (not_lt.mpr h.le), if_pos h], if_pos h', fun h => absurd h (lt_irrefl _), by linarith⟩
          · exact ⟨_, a', by rw [if_neg (not_lt.mpr h.le), if_pos h], by simp [h'], fun h => absurd h (lt_irrefl _), by linarith⟩
          · exact ⟨_, _, by rw [if_neg (not_lt.mpr h.le), if_pos h], by rw [if_neg (not_lt.mpr h'.le), if_pos h'],
              fun h => absurd h (lt_irrefl _), le_rfl⟩
  choose! a a' h1 h2 h3 h4 using key
  exact ⟨a' n - a n, sub_nonneg.mpr (h4 n le_rfl), a, a', h1, h2, fun j hj => h3 j hj.le hj, by ring⟩

theorem TickB.ad (hC : Cols (n + 1) x b) (hC' : Cols (n + 1) y b') (hT : TickB n b b') (hw : ∀ j < n + 1, Traded (b j)) :
    ∃ e, 0 ≤ e ∧ Nudged n (adF x) (adF y) e := by
  refine ⟨adStep (b' n) - adStep (b n), ?_, fun i => ∑ j ∈ Finset.range (i + 1), adStep (b j),
    fun i => ∑ j ∈ Finset.range (i + 1), adStep (b' j), fun i hi => ad_fin hC (fun j hj => (hw j hj).1) (by omega),
    fun i hi => ad_fin hC' (hT.inside fun j hj => (hw j hj).1) (by omega), fun i hi => ?_, ?_⟩
  · rw [adStep, adStep, hT.v, ← mul_sub]
    exact mul_nonneg (hw n (by omega)).2 (sub_nonneg.mpr (hT.spot (hw n (by omega)).1))
  · exact Finset.sum_congr rfl fun j hj => by rw [hT.same j (by have := Finset.mem_range.mp hj; omega)]
  · show ∑ j ∈ Finset.range (n + 1), adStep (b' j) = ∑ j ∈ Finset.range (n + 1), adStep (b j) + (adStep (b' n) - adStep (b n))
    rw [Finset.sum_range_succ, Finset.sum_range_succ, Finset.sum_congr rfl fun j hj =>
      show adStep (b' j) = adStep (b j) by rw [hT.same j (Finset.mem_range.mp hj)]]
    ring

theorem TickB.force (hC : Cols (n + 1) x b) (hC' : Cols (n + 1) y b') (hT : TickB n b b') :
    Nudged n (fun j => subF (Ind.cl x j) (shiftF 1 (fl 0) (Ind.cl x) j) *. vo x j)
      (fun j => subF (Ind.cl y j) (shiftF 1 (fl 0) (Ind.cl y) j) *. vo y j) (((b' n).c - (b n).c) * (b n).v) := by
  have f0 : (fl 0 : XF K) = .fin 0 := by simp
  have e : ∀ (z : Nat → Candle (XF K)) (w : Nat → Bar K), Cols (n + 1) z w → ∀ j,
      subF (Ind.cl z j) (shiftF 1 (fl 0) (Ind.cl z) j) *. vo z j =
        .fin (((w j).c - if j < 1 then 0 else (w (j - 1)).c) * (w j).v) := fun z w hz j => by
    rw [shiftF, hz.cl, hz.vo, f0]
    split
    · simp only [finF, subF_fin, mul_fin]
    · simp only [finF, subF_fin, mul_fin]
  refine ⟨_, _, fun j _ => e x b hC j, fun j _ => e y b' hC' j, fun j hj => ?_, ?_⟩
  · rw [hT.same j hj, hT.same (j - 1) (by omega)]
  · show ((b' n).c - _) * (b' n).v = ((b n).c - _) * (b n).v + _
    rw [hT.v]
    by_cases h : n < 1
    · rw [if_pos h, if_pos h]; ring
    · rw [if_neg h, if_neg h, hT.same (n - 1) (by omega)]; ring

end volume

/-- **C127**, lines that weigh volume by direction. They need volumes that are not negative; all but the first two also need
candles that close within their range. -/
theorem C127_volume_lines (p : Nat) {f s : Nat} (hfs : f ≤ s) :
    Rises (K := K) (fun b => 0 ≤ b.v) OBV Rec.value ∧ Rises (K := K) (fun b => 0 ≤ b.v) (VWMA p) Rec.value ∧
    Rises (K := K) (fun b => 0 ≤ b.v) (Force p) Rec.value ∧
    Rises (K := K) Traded (CMF p) Rec.value ∧ Rises (K := K) Traded AD Rec.value ∧
    Rises (K := K) Traded (Chaikin f s).toIndicator Chaikin.Data.ad ∧
    Rises (K := K) Traded (Chaikin f s).toIndicator Chaikin.Data.value := by
  refine ⟨rises_of OBV.grows.yields fun n x y b b' hC hC' hT hw => hT.obv hC hC' (hw n (by omega)),
    rises_of (VWMA.appends _).yields fun n x y b b' hC hC' hT hw => ?_,
    rises_of (Force.appends _).yields fun n x y b b' hC hC' hT hw =>
      ⟨_, mul_nonneg (emaShare_nonneg p n) (mul_nonneg hT.dc (hw n (by omega))), (hT.force hC hC').ema p⟩,
    rises_of (CMF.appends _).yields fun n x y b b' hC hC' hT hw => ?_,
    rises_of AD.appends.yields fun n x y b b' hC hC' hT hw => hT.ad hC hC' hw,
    rises_of (Chaikin.appends _ _).yields fun n x y b b' hC hC' hT hw => hT.ad hC hC' hw,
    rises_of (Chaikin.appends _ _).yields fun n x y b b' hC hC' hT hw => ?_⟩
  · have e : ∀ (z : Nat → Candle (XF K)) (w : Nat → Bar K), Cols (n + 1) z w →
        (fun j => cl z j *. vo z j) = finF fun j => (w j).c * (w j).v := fun z w hz => by
      funext j; rw [hz.cl, hz.vo]; simp only [finF, mul_fin]
    have h := quotient_rises (show Nudges n (fun j => (b j).c * (b j).v) (fun j => (b' j).c * (b' j).v) (((b' n).c - (b n).c) * (b n).v) from
      ⟨fun j hj => by rw [hT.same j hj], by rw [hT.v]; ring⟩) (mul_nonneg hT.dc (hw n (by omega)))
        (w := fun j => (b j).v) (w' := fun j => (b' j).v) (fun j hj => hw j (by omega)) (fun j hj => hT.v_eq j hj) p
    rw [← e x b hC, ← e y b' hC', ← hC.vo, ← hC'.vo] at h
    exact h
  · have h := quotient_rises (show Nudges n (fun i => ((b i).c - (b i).l - ((b i).h - (b i).c)) / ((b i).h - (b i).l) * (b i).v)
        (fun i => ((b' i).c - (b' i).l - ((b' i).h - (b' i).c)) / ((b' i).h - (b' i).l) * (b' i).v) _ from
      ⟨fun j hj => by rw [hT.same j hj], (add_sub_cancel _ _).symm⟩)
        (by rw [hT.v, ← sub_mul]; exact mul_nonneg (sub_nonneg.mpr (hT.spot (hw n (by omega)).1)) (hw n (by omega)).2)
        (w := fun j => (b j).v) (w' := fun j => (b' j).v) (fun j hj => (hw j (by omega)).2) (fun j hj => hT.v_eq j hj) p
    rw [← mfv_fin hC, ← mfv_fin hC', ← hC.vo, ← hC'.vo] at h
    exact h
  · obtain ⟨e, e0, he⟩ := hT.ad hC hC' hw
    exact ⟨_, diff_share hfs n e0, (he.ema f).sub (he.ema s)⟩

/-! ## The commodity channel index -/

section cci
open Finset

theorem dev_point {z u u' : K} (hu : 0 ≤ u) (h : u ≤ u') : u * |z - u'| - u' * |z - u| ≤ (u' - u) * z := by
  rcases le_total z u with h1 | h1
  · rw [abs_of_nonpos (by linarith), abs_of_nonpos (by linarith)]
    exact le_of_eq (by ring)
  · rcases le_total z u' with h2 | h2
    · rw [abs_of_nonpos (by linarith), abs_of_nonneg (by linarith)]
      nlinarith [mul_le_mul_of_nonneg_left h1 (hu.trans h)]
    · rw [abs_of_nonneg (by linarith), abs_of_nonneg (by linarith)]
      nlinarith [mul_nonneg (sub_nonneg.mpr h) (hu.trans h1)]

theorem dev_sum {q : Nat} {z : Nat → K} (h0 : ∑ j ∈ range q, z j = 0) {u u' : K} (hu : 0 ≤ u) (h : u ≤ u') :
    u * ∑ j ∈ range q, |z j - u'| ≤ u' * ∑ j ∈ range q, |z j - u| := by
  have := Finset.sum_le_sum (s := range q) fun j _ => dev_point (z := z j) hu h
  rw [Finset.sum_sub_distrib, ← Finset.mul_sum, ← Finset.mul_sum, ← Finset.mul_sum, h0, mul_zero] at this
  linarith

/-- The excess over the mean, relative to the deviations, of `q` values with mean 0 and one more value. -/
theorem excess_pos {q : Nat} {z : Nat → K} (h0 : ∑ j ∈ range q, z j = 0) {u u' : K} (hu : 0 ≤ u) (h : u ≤ u') :
    q * u / (q * |u| + ∑ j ∈ range q, |z j - u|) ≤ q * u' / (q * |u'| + ∑ j ∈ range q, |z j - u'|) := by
  have hu' := hu.trans h
  have q0 : (0 : K) ≤ q := Nat.cast_nonneg q
  have G : ∀ w : K, 0 ≤ ∑ j ∈ range q, |z j - w| := fun w => Finset.sum_nonneg fun j _ => abs_nonneg _
  rw [abs_of_nonneg hu, abs_of_nonneg hu']
  have a0 : 0 ≤ (q : K) * u := mul_nonneg q0 hu
  have a1 : 0 ≤ (q : K) * u' := mul_nonneg q0 hu'
  rcases eq_or_lt_of_le (add_nonneg a0 (G u)) with e | e
  · rw [← e, div_zero]; exact div_nonneg a1 (add_nonneg a1 (G u'))
  · rcases eq_or_lt_of_le (add_nonneg a1 (G u')) with e' | e'
    · have k := G u'
      have k2 : (q : K) * u ≤ q * u' := mul_le_mul_of_nonneg_left h q0
      have : (q : K) * u = 0 := le_antisymm (by linarith) a0
      rw [this, zero_div, ← e', div_zero]
    · rw [div_le_div_iff₀ e e']
      have := mul_le_mul_of_nonneg_left (dev_sum h0 hu h) q0
      linarith

theorem excess_mono {q : Nat} {z : Nat → K} (h0 : ∑ j ∈ range q, z j = 0) {u u' : K} (h : u ≤ u') :
    q * u / (q * |u| + ∑ j ∈ range q, |z j - u|) ≤ q * u' / (q * |u'| + ∑ j ∈ range q, |z j - u'|) := by
  have q0 : (0 : K) ≤ q := Nat.cast_nonneg q
  have G : ∀ w : K, 0 ≤ q * |w| + ∑ j ∈ range q, |z j - w| := fun w =>
    add_nonneg (mul_nonneg q0 (abs_nonneg _)) (Finset.sum_nonneg fun j _ => abs_nonneg _)
  rcases le_total 0 u with h1 | h1
  · exact excess_pos h0 h1 h
  · rcases le_total 0 u' with h2 | h2
    · exact (div_nonpos_of_nonpos_of_nonneg (mul_nonpos_of_nonneg_of_nonpos q0 h1) (G u)).trans (div_nonneg (mul_nonneg q0 h2) (G u'))
    · have k := excess_pos (q := q) (z := fun j => -z j) (by rw [Finset.sum_neg_distrib, h0, neg_zero])
        (neg_nonneg.mpr h2) (neg_le_neg h)
      have e : ∀ w : K, ∑ j ∈ range q, |-z j - -w| = ∑ j ∈ range q, |z j - w| := fun w =>
        Finset.sum_congr rfl fun j _ => by rw [← abs_neg]; congr 1; ring
      rw [e, e, abs_neg, abs_neg, mul_neg, mul_neg, neg_div, neg_div] at k
      exact neg_le_neg_iff.mp k

/-- The newest of `q + 1` values in terms of its distance from the mean of the others. -/
theorem excess_form {q : Nat} (hq : 0 < q) (a : Nat → K) :
    let m := (∑ j ∈ range q, a j) / q
    let u := (a q - m) / (q + 1)
    a q - (∑ j ∈ range (q + 1), a j) / ((q + 1 : Nat) : K) = q * u ∧
      ∑ j ∈ range (q + 1), |a j - (∑ j ∈ range (q + 1), a j) / ((q + 1 : Nat) : K)| =
        q * |u| + ∑ j ∈ range q, |a j - m - u| ∧ ∑ j ∈ range q, (a j - m) = 0 := by
  intro m u
  have q1 : ((q : K) + 1) ≠ 0 := by positivity
  have q2 : (q : K) ≠ 0 := natCast_ne hq
  have q0 : (0 : K) ≤ q := Nat.cast_nonneg q
  have hS : ∑ j ∈ range q, a j = q * m := by show _ = (q : K) * ((∑ j ∈ range q, a j) / q); field_simp
  have hM : (∑ j ∈ range (q + 1), a j) / ((q + 1 : Nat) : K) = m + u := by
    rw [Finset.sum_range_succ, hS]
    show _ = m + (a q - m) / (q + 1)
    push_cast
    field_simp; ring
  have h1 : a q - (m + u) = q * u := by
    show a q - (m + (a q - m) / (q + 1)) = q * ((a q - m) / (q + 1))
    field_simp; ring
  refine ⟨by rw [hM, h1], ?_, ?_⟩
  · rw [hM, Finset.sum_range_succ, h1, abs_mul, abs_of_nonneg q0, add_comm]
    congr 1
    exact Finset.sum_congr rfl fun j _ => by congr 1; ring
  · rw [Finset.sum_sub_distrib, hS]; simp

/-- The excess of the newest of `p` values over their mean, relative to their deviations, grows with it. -/
theorem cci_core {p : Nat} (hp : 0 < p) {a a' : Nat → K} (hs : ∀ j, j + 1 < p → a' j = a j) (hl : a (p - 1) ≤ a' (p - 1)) :
    (a (p - 1) - (∑ j ∈ range p, a j) / p) / ∑ j ∈ range p, |a j - (∑ j ∈ range p, a j) / p| ≤
      (a' (p - 1) - (∑ j ∈ range p, a' j) / p) / ∑ j ∈ range p, |a' j - (∑ j ∈ range p, a' j) / p| := by
  obtain ⟨q, rfl⟩ : ∃ q, p = q + 1 := ⟨p - 1, by omega⟩
  rw [Nat.add_sub_cancel] at hl ⊢
  rcases Nat.eq_zero_or_pos q with rfl | hq
  · simp
  · obtain ⟨h1, h2, h3⟩ := excess_form hq a
    obtain ⟨h1', h2', -⟩ := excess_form hq a'
    rw [h1, h2, h1', h2']
    have hs' : ∀ j ∈ range q, a' j = a j := fun j hj => hs j (by have := mem_range.mp hj; omega)
    rw [Finset.sum_congr rfl hs']
    rw [Finset.sum_congr (s₁ := range q) (f := fun j => |a' j - (∑ j ∈ range q, a j) / q -
      (a' q - (∑ j ∈ range q, a j) / q) / (q + 1)|) rfl fun j hj => by rw [hs' j hj]]
    exact excess_mono h3 (div_le_div_of_nonneg_right (by linarith) (by positivity))

/-- The value of the index of the window that ends at `i`; 0 where all values of the window agree. -/
def cciK (p : Nat) (a : Nat → K) (i : Nat) : K :=
  if p = 0 ∨ i + 1 < p then 0 else
    (a i - (∑ j ∈ range p, a (i + 1 - p + j)) / p) /
      (15 / 1000 * ((∑ j ∈ range p, |a (i + 1 - p + j) - (∑ j ∈ range p, a (i + 1 - p + j)) / p|) / p))

theorem cciK_same {p : Nat} {a a' : Nat → K} {i : Nat} (h : ∀ j ≤ i, a' j = a j) : cciK p a' i = cciK p a i := by
  rw [cciK, cciK]
  split
  · rfl
  · next hi =>
    have e : ∀ j ∈ range p, a' (i + 1 - p + j) = a (i + 1 - p + j) := fun j hj => h _ (by have := mem_range.mp hj; omega)
    rw [h i le_rfl, Finset.sum_congr rfl e]
    congr 3
    exact Finset.sum_congr rfl fun j hj => by rw [e j hj]

theorem cciK_rise {p n : Nat} {a a' : Nat → K} {d : K} (hd : 0 ≤ d) (h : Nudges n a a' d) : cciK p a n ≤ cciK p a' n := by
  rw [cciK, cciK]
  split
  · exact le_rfl
  · next hi =>
    have hp : 0 < p := by omega
    have e : n + 1 - p + (p - 1) = n := by omega
    have k := cci_core hp (a := fun j => a (n + 1 - p + j)) (a' := fun j => a' (n + 1 - p + j))
      (fun j hj => h.same _ (by omega)) (by show a _ ≤ a' _; rw [e, h.move]; linarith)
    beta_reduce at k
    rw [e] at k
    have f : ∀ A D : K, A / (15 / 1000 * (D / p)) = A / D * (p / (15 / 1000)) := fun A D => by
      have : (p : K) ≠ 0 := natCast_ne hp
      rcases eq_or_ne D 0 with rfl | h0
      · simp
      · field_simp
    rw [f, f]
    exact mul_le_mul_of_nonneg_right k (div_nonneg (Nat.cast_nonneg p) (by norm_num))

theorem aiCci_fin (p : Nat) (a : Nat → K) (i : Nat) : aiCciF p (finF a) i = .fin (cciK p a i) := by
  have f0 : (fl 0 : XF K) = .fin 0 := by simp
  rw [aiCciF, cciK]
  by_cases hi : p = 0 ∨ i + 1 < p
  · rw [devF, if_pos hi, f0, if_pos (by simp), if_pos hi]
  · have hp : 0 < p := by omega
    have hp0 : (p : K) ≠ 0 := natCast_ne hp
    have em : maF p (finF a) i = .fin ((∑ j ∈ range p, a (i + 1 - p + j)) / p) := by rw [maF_fin hp, if_neg (by omega)]
    rw [em, devF, if_neg hi, if_neg hi, accum_fin, fl_nat, div_fin hp0]
    have : (fun j => GoFloat.abs (finF a j -. .fin ((∑ j ∈ range p, a (i + 1 - p + j)) / p))) =
        finF fun j => |a j - (∑ j ∈ range p, a (i + 1 - p + j)) / p| := by
      funext j; simp only [finF, sub_fin, abs_fin']
    rw [this, accum_fin, div_fin hp0, lit_fin, f0]
    set D := (∑ j ∈ range p, |a (i + 1 - p + j) - (∑ j ∈ range p, a (i + 1 - p + j)) / p|) / (p : K) with hD
    by_cases h0 : D = 0
    · rw [h0]; simp
    · rw [if_neg (by simpa using h0), mul_fin]
      simp only [finF, sub_fin]
      push_cast
      rw [div_fin (mul_ne_zero (by norm_num) h0)]

/-- `Cci` with one period: the same index, except that it is `NaN` where all values of the window agree. -/
theorem cci_fin {p : Nat} (hp : 0 < p) (a : Nat → K) (i : Nat) :
    cciF p p (finF a) i = .fin (cciK p a i) ∨ (cciF p p (finF a) i = .nan ∧ cciK p a i = 0) := by
  have f0 : (fl 0 : XF K) = .fin 0 := by simp
  rw [cciF, cciK]
  by_cases hi : i + 1 < p
  · left; rw [if_pos hi, if_pos (Or.inr hi), f0]
  · have hp0 : (p : K) ≠ 0 := natCast_ne hp
    have hs : smaF p (finF a) i = .fin ((∑ j ∈ range p, a (i + 1 - p + j)) / p) := by
      rw [smaF_fin hp, show min p (i + 1) = p by omega]
      congr 2
      have : ∀ k lo, psum a (lo + k) - psum a lo = ∑ j ∈ range k, a (lo + j) := fun k lo => by
        induction k with
        | zero => simp
        | succ k ih => rw [← Nat.add_assoc, psum_succ, Finset.sum_range_succ, ← ih]; ring
      rw [← this, show i + 1 - p + p = i + 1 by omega]
    rw [if_neg hi, if_neg (by omega), meanDevF, if_neg hi, hs]
    have : (fun j => GoFloat.abs (finF a j -. .fin ((∑ j ∈ range p, a (i + 1 - p + j)) / p))) =
        finF fun j => |a j - (∑ j ∈ range p, a (i + 1 - p + j)) / p| := by
      funext j; simp only [finF, sub_fin, abs_fin']
    rw [this, accum_fin, fl_nat, div_fin hp0, lit_fin, mul_fin]
    simp only [finF, sub_fin]
    by_cases h0 : ∑ j ∈ range p, |a (i + 1 - p + j) - (∑ j ∈ range p, a (i + 1 - p + j)) / p| = 0
    · right
      have hi' : a i - (∑ j ∈ range p, a (i + 1 - p + j)) / p = 0 := by
        have := (Finset.sum_eq_zero_iff_of_nonneg fun j _ => abs_nonneg _).mp h0 (p - 1) (mem_range.mpr (by omega))
        rw [show i + 1 - p + (p - 1) = i by omega] at this
        exact abs_eq_zero.mp this
      rw [hi', h0]
      refine ⟨?_, by simp⟩
      simp [div_fin_eq, infSign]
    · left
      push_cast
      rw [div_fin (mul_ne_zero (by norm_num) (div_ne_zero h0 hp0))]

end cci

/-- As `Rises`, for a line that is undefined (`NaN`) where a window has no deviation at all. -/
def RisesOrNaN (Q : Bar K → Prop) (I : Indicator (XF K)) (u : I.D → XF K) : Prop :=
  ∀ it jt, Uptick Q it jt → (I.data it).toOption.isSome = (I.data jt).toOption.isSome ∧
    ∀ d e, I.data it = .ok d → I.data jt = .ok e → ∃ r s, d.getLast? = some r ∧ e.getLast? = some s ∧
      (u r = .nan ∨ u s = .nan ∨ ∃ a c, u r = .fin a ∧ u s = .fin c ∧ a ≤ c)

theorem risesOrNaN_of {Q : Bar K → Prop} {I : Indicator (XF K)} {ok} {G} (hy : Yields I ok G) {u : I.D → XF K}
    (h : ∀ n x y (b b' : Nat → Bar K), Cols (n + 1) x b → Cols (n + 1) y b' → TickB n b b' → (∀ j < n + 1, Q (b j)) →
      (u (G x n) = .nan ∨ u (G y n) = .nan ∨ ∃ a c, u (G x n) = .fin a ∧ u (G y n) = .fin c ∧ a ≤ c)) : RisesOrNaN Q I u := by
  intro it jt ht
  obtain ⟨n, x, y, b, b', hx, hx', hl, hC, hC', hT, hQ, -⟩ := ht.tabs
  refine ⟨?_, fun d e hd he => ?_⟩
  · by_cases hok : ok (n + 1)
    · rw [(hy _ _ _ hx).1 hok, (hy _ _ _ hx').1 hok]; rfl
    · obtain ⟨p, hp⟩ := (hy _ _ _ hx).2 hok
      obtain ⟨p', hp'⟩ := (hy _ _ _ hx').2 hok
      rw [hp, hp']; rfl
  · obtain ⟨-, rfl⟩ := yields_inv hy hx hd
    obtain ⟨-, rfl⟩ := yields_inv hy hx' he
    exact ⟨_, _, tab_getLast _ _, tab_getLast _ _, h n x y b b' hC hC' hT hQ⟩

theorem TickB.typK {n : Nat} {b b' : Nat → Bar K} (hT : TickB n b b') :
    Nudges n (fun j => ((b j).h + (b j).l + (b j).c) / 3) (fun j => ((b' j).h + (b' j).l + (b' j).c) / 3)
      (((b' n).h - (b n).h + ((b' n).c - (b n).c)) / 3) :=
  ⟨fun j hj => by rw [hT.same j hj], by rw [hT.l]; ring⟩

/-- **C127**, the commodity channel indices. `Cci` with equal periods (the default) divides by the mean deviation, so it is
`NaN` where the window has none; `AiCoinCCI` has a value everywhere. -/
theorem C127_cci {p : Nat} (hp : 1 ≤ p) :
    RisesOrNaN (K := K) (fun _ => True) (CCIi p p).toIndicator Rec.value ∧
    ∀ q : Nat, Rises (K := K) (fun _ => True) (AiCCI q).toIndicator Rec.value := by
  refine ⟨risesOrNaN_of (CCIi.appends _ _).yields fun n x y b b' hC hC' hT _ => ?_,
    fun q => rises_of (AiCCI.appends _).yields fun n x y b b' hC hC' hT _ => ?_⟩
  · show cciF p p (typF x) n = .nan ∨ cciF p p (typF y) n = .nan ∨ ∃ a c, cciF p p (typF x) n = .fin a ∧ cciF p p (typF y) n = .fin c ∧ a ≤ c
    rw [typ_fin hC, typ_fin hC']
    rcases cci_fin hp (fun j => ((b j).h + (b j).l + (b j).c) / 3) n with h | ⟨h, -⟩
    · rcases cci_fin hp (fun j => ((b' j).h + (b' j).l + (b' j).c) / 3) n with h' | ⟨h', -⟩
      · refine Or.inr (Or.inr ⟨_, _, h, h', cciK_rise ?_ hT.typK⟩)
        have := hT.dc
        have := hT.dh
        positivity
      · exact Or.inr (Or.inl h')
    · exact Or.inl h
  · have hm : Nudges n (fun i => (b i).c) (fun i => (b' i).c) ((b' n).c - (b n).c) :=
      ⟨fun j hj => by rw [hT.same j hj], by ring⟩
    refine ⟨cciK q (fun i => (b' i).c) n - cciK q (fun i => (b i).c) n, sub_nonneg.mpr (cciK_rise hT.dc hm),
      cciK q fun i => (b i).c, cciK q fun i => (b' i).c, fun j _ => ?_, fun j _ => ?_, fun j hj => ?_, by ring⟩
    · show aiCciF q (cl x) j = _
      rw [hC.cl, aiCci_fin]
    · show aiCciF q (cl y) j = _
      rw [hC'.cl, aiCci_fin]
    · exact cciK_same fun l hl => hm.same l (by omega)

/-! ## The relative strength index -/

theorem wilderAvg_le {p : Nat} (hp : 1 ≤ p) {g g' : Nat → K} {m : Nat} (h : ∀ j, 1 ≤ j → j ≤ p + m → g j ≤ g' j) :
    wilderAvg p g m ≤ wilderAvg p g' m := by
  have p0 : (0 : K) ≤ p := Nat.cast_nonneg p
  have p1 : (0 : K) ≤ (p : K) - 1 := by
    have : (1 : K) ≤ p := by exact_mod_cast hp
    linarith
  induction m with
  | zero =>
    rw [wilderAvg, wilderAvg]
    exact div_le_div_of_nonneg_right (Finset.sum_le_sum fun j hj => h _ (by omega) (by have := Finset.mem_range.mp hj; omega)) p0
  | succ m ih =>
    rw [wilderAvg, wilderAvg]
    have k1 := mul_le_mul_of_nonneg_left (ih fun j h1 h2 => h j h1 (by omega)) p1
    have k2 := h (p + m + 1) (by omega) (by omega)
    exact div_le_div_of_nonneg_right (by linarith) p0

/-- **C127**, the relative strength index: after an uptick the last value is not lower, unless the averages of gains and
losses together fall below the threshold (1e-14) under which the code returns 0. -/
theorem C127_rsi {p : Nat} (hp : 2 ≤ p) {it jt : Item (XF K)} (ht : Uptick (fun _ => True) it jt) {d e : List (Rec (XF K))}
    (hd : (RSI p).toIndicator.data it = .ok d) (he : (RSI p).toIndicator.data jt = .ok e) :
    ∃ r s a c, d.getLast? = some r ∧ e.getLast? = some s ∧ r.value = .fin a ∧ s.value = .fin c ∧ (a ≤ c ∨ c = 0) := by
  obtain ⟨n, x, y, b, b', hx, hx', hl, hC, hC', hT, -, -⟩ := ht.tabs
  have f0 : (fl 0 : XF K) = .fin 0 := by simp
  obtain ⟨-, rfl⟩ := yields_inv (RSI.appends p).yields hx hd
  obtain ⟨-, rfl⟩ := yields_inv (RSI.appends p).yields hx' he
  have key : ∃ a c, rsiF p (cl x) n = .fin a ∧ rsiF p (cl y) n = .fin c ∧ (a ≤ c ∨ c = 0) := by
    rw [rsiF, rsiF]
    by_cases hn : p < 2 ∨ n < p
    · rw [if_pos hn, if_pos hn]; exact ⟨0, 0, f0, f0, Or.inr rfl⟩
    · rw [if_neg hn, if_neg hn, hC.cl, hC'.cl, rsiW_fin (by omega), rsiW_fin (by omega)]
      have np : p + (n - p) = n := by omega
      set g := wilderAvg p (fun j => max ((b j).c - (b (j - 1)).c) 0) (n - p) with hg
      set l := wilderAvg p (fun j => max ((b (j - 1)).c - (b j).c) 0) (n - p) with hl
      set g' := wilderAvg p (fun j => max ((b' j).c - (b' (j - 1)).c) 0) (n - p) with hg'
      set l' := wilderAvg p (fun j => max ((b' (j - 1)).c - (b' j).c) 0) (n - p) with hl'
      have g0 : 0 ≤ g := wilderAvg_nonneg (by omega) (fun j => le_max_right _ _) _
      have l0 : 0 ≤ l := wilderAvg_nonneg (by omega) (fun j => le_max_right _ _) _
      have g1 : 0 ≤ g' := wilderAvg_nonneg (by omega) (fun j => le_max_right _ _) _
      have l1 : 0 ≤ l' := wilderAvg_nonneg (by omega) (fun j => le_max_right _ _) _
      have hc : ∀ j ≤ n, (b j).c ≤ (b' j).c := fun j hj => by
        rcases Nat.lt_or_ge j n with h | h
        · rw [hT.same j h]
        · rw [show j = n by omega]; exact hT.c
      have gg : g ≤ g' := wilderAvg_le (by omega) fun j h1 h2 => by
        have := hc j (by omega)
        rw [hT.same (j - 1) (by omega)]
        exact max_le_max (by linarith) le_rfl
      have ll : l' ≤ l := wilderAvg_le (by omega) fun j h1 h2 => by
        have := hc j (by omega)
        rw [hT.same (j - 1) (by omega)]
        exact max_le_max (by linarith) le_rfl
      rw [rsiVal_fin g0 l0, rsiVal_fin g1 l1]
      refine ⟨_, _, rfl, rfl, ?_⟩
      by_cases h' : g' + l' < 1 / 100000000000000
      · right; rw [if_pos h']
      · left
        rw [if_neg h']
        have t : (0 : K) < 1 / 100000000000000 := by norm_num
        have p1 : 0 < g' + l' := t.trans_le (not_lt.mp h')
        split
        · exact mul_nonneg (by norm_num) (div_nonneg g1 p1.le)
        · next h =>
          have p0 : 0 < g + l := t.trans_le (not_lt.mp h)
          refine mul_le_mul_of_nonneg_left ?_ (by norm_num)
          rw [div_le_div_iff₀ p0 p1]
          nlinarith [mul_le_mul gg ll l1 g1]
  obtain ⟨a, c, h1, h2, h3⟩ := key
  exact ⟨_, _, a, c, tab_getLast _ _, tab_getLast _ _, h1, h2, h3⟩

end Verif.Props
