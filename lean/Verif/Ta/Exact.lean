import Verif.Ta.Misc
import Verif.Spec
import Mathlib.Tactic.LinearCombination
import Mathlib.Algebra.Group.Nat.Even

/-!
# The closed forms of the `ta` functions in exact arithmetic
-/

namespace Verif.Ta
open GoFloat XF

variable {K : Type} [Field K] [LinearOrder K]

/-- A finite series as float64 values. -/
abbrev finF (a : Nat → K) : Nat → XF K := fun i => .fin (a i)

theorem runSum_fin (p : Nat) (a : Nat → K) (k : Nat) :
    runSum p (finF a) k = .fin (psum a k - psum a (k - p)) := by
  induction k with
  | zero => simp [runSum]
  | succ k ih =>
    rw [runSum]
    split
    · next h =>
      rw [ih]
      have : k + 1 - p = (k - p) + 1 := by omega
      rw [this]
      simp only [add_fin, sub_fin, psum_succ]
      congr 1; ring
    · next h =>
      rw [ih]
      have h1 : k + 1 - p = 0 := by omega
      have h2 : k - p = 0 := by omega
      rw [h1, h2]
      simp [psum_succ]

theorem accum_fin (a : Nat → K) (lo c : Nat) :
    accum (finF a) lo c = .fin (∑ j ∈ Finset.range c, a (lo + j)) := by
  induction c with
  | zero => simp [accum]
  | succ c ih => rw [accum, ih]; simp [Finset.sum_range_succ]

theorem smaFix_fin (a : K) : smaFix (XF.fin a) = .fin a := by simp [smaFix]

theorem subF_fin (a b : K) : subF (XF.fin a) (.fin b) = .fin (a - b) := by
  simp [subF, sub_eq_add_neg]

theorem safeDiv_fin {a b : K} (h : b ≠ 0) : safeDiv (XF.fin a) (.fin b) = .fin (a / b) := by
  simp [safeDiv, div_fin h]

theorem safeDiv_zero (a : K) : safeDiv (XF.fin a) (.fin 0) = .fin 0 := by
  unfold safeDiv
  rw [div_fin_eq, if_pos rfl, infSign]
  split
  · simp
  · split <;> simp

theorem safeDiv_fin_eq (a b : K) : safeDiv (XF.fin a) (.fin b) = .fin (a / b) := by
  by_cases h : b = 0
  · subst h; simp [safeDiv_zero]
  · exact safeDiv_fin h

theorem smaF_zero (a : Nat → K) (i : Nat) : smaF 0 (finF a) i = .fin 0 := by
  rw [smaF, runSum_fin]
  simp [div_fin_eq, infSign, smaFix]

section ordered
variable [IsStrictOrderedRing K]

theorem natCast_ne {p : Nat} (hp : 0 < p) : (p : K) ≠ 0 := by
  have : (0 : K) < (p : K) := by exact_mod_cast hp
  exact this.ne'

theorem smaF_fin {p : Nat} (hp : 0 < p) (a : Nat → K) (i : Nat) :
    smaF p (finF a) i = .fin ((psum a (i + 1) - psum a (i + 1 - p)) / (min p (i + 1) : Nat)) := by
  rw [smaF, runSum_fin]
  have : (if p ≤ i then (p : Int) else (i : Int) + 1) = ((min p (i + 1) : Nat) : Int) := by
    split <;> omega
  rw [this, fl_nat, div_fin (natCast_ne (by omega)), smaFix_fin]

theorem maF_fin {p : Nat} (hp : 0 < p) (a : Nat → K) (i : Nat) :
    maF p (finF a) i = .fin (if i + 1 < p then 0 else
      (∑ j ∈ Finset.range p, a (i + 1 - p + j)) / p) := by
  rw [maF]
  by_cases h : i + 1 < p
  · simp [h]
  · have h' : ¬ (p = 0 ∨ i + 1 < p) := by omega
    rw [if_neg h', if_neg h, accum_fin, fl_nat, div_fin (natCast_ne hp)]

/-! ### Wma -/

omit [IsStrictOrderedRing K] in
theorem wsum0_fin (a : Nat → K) (k : Nat) :
    wsum0 (finF a) k = .fin (∑ j ∈ Finset.range k, a j * ((j : K) + 1)) := by
  induction k with
  | zero => simp [wsum0]
  | succ k ih => rw [wsum0, ih]; simp [Finset.sum_range_succ]

theorem wmaS_fin {p : Nat} (hp : 0 < p) (a : Nat → K) (m : Nat) :
    wmaS p (finF a) m = (.fin (∑ j ∈ Finset.range (p - 1), a (m + j) * ((j : K) + 1)),
      .fin ((∑ j ∈ Finset.range (p - 1), a (m + j)) + (if m = 0 then 0 else a (m - 1))),
      .fin (if m = 0 then 0 else a (m - 1))) := by
  obtain ⟨q, rfl⟩ : ∃ q, p = q + 1 := ⟨p - 1, by omega⟩
  simp only [Nat.add_sub_cancel]
  induction m with
  | zero => simp [wmaS, wsum0_fin, accum_fin]
  | succ m ih =>
    rw [wmaS, ih]
    have hshift : ∑ j ∈ Finset.range q, a (m + 1 + j)
        = (∑ j ∈ Finset.range q, a (m + j)) + a (m + q) - a m := by
      have h1 := Finset.sum_range_succ (fun j => a (m + j)) q
      have h2 := Finset.sum_range_succ' (fun j => a (m + j)) q
      have h3 : ∀ j, m + 1 + j = m + (j + 1) := fun j => by omega
      simp only [h3]
      simp only [Nat.add_zero] at h2
      rw [← h1, h2]; ring
    have hw : ∑ j ∈ Finset.range q, a (m + 1 + j) * ((j : K) + 1)
        = (∑ j ∈ Finset.range q, a (m + j) * ((j : K) + 1)) + a (m + q) * ((q : K) + 1)
          - ((∑ j ∈ Finset.range q, a (m + j)) + a (m + q)) := by
      have h1 := Finset.sum_range_succ (fun j => a (m + j) * ((j : K) + 1)) q
      have h2 := Finset.sum_range_succ' (fun j => a (m + j) * ((j : K) + 1)) q
      have h3 : ∀ j, m + 1 + j = m + (j + 1) := fun j => by omega
      have h4 : ∑ j ∈ Finset.range q, a (m + (j + 1)) * (((j + 1 : Nat) : K) + 1)
          = (∑ j ∈ Finset.range q, a (m + (j + 1)) * ((j : K) + 1))
            + ∑ j ∈ Finset.range q, a (m + (j + 1)) := by
        rw [← Finset.sum_add_distrib]
        apply Finset.sum_congr rfl
        intro j _; push_cast; ring
      simp only [h3] at hshift ⊢
      rw [h4, hshift] at h2
      simp only [Nat.cast_zero, Nat.add_zero] at h2
      linear_combination h1 - h2
    simp only [add_fin, sub_fin, mul_fin, fl_nat, Nat.add_sub_cancel, Nat.succ_ne_zero, if_false,
      Nat.add_comm q m]
    rw [hw, hshift]
    refine Prod.ext ?_ (Prod.ext ?_ ?_) <;> simp only [fin_inj] <;> push_cast <;> ring

/-- The triangular number used as divider. -/
theorem tri_shift (p : Nat) : ((p : Int) * (p + 1)) >>> 1 = ((p * (p + 1) / 2 : Nat) : Int) := by
  rw [Int.shiftRight_eq_div_pow]; push_cast; rfl

theorem tri_cast (p : Nat) : ((p * (p + 1) / 2 : Nat) : K) = (p : K) * (p + 1) / 2 := by
  have h : 2 ∣ p * (p + 1) := (Nat.even_mul_succ_self p).two_dvd
  have h2 : ((2 * (p * (p + 1) / 2) : Nat) : K) = (p : K) * (p + 1) := by
    rw [Nat.mul_div_cancel' h]; push_cast; rfl
  rw [← h2]; push_cast
  rw [mul_div_cancel_left₀ _ (two_ne_zero)]

theorem wmaF_fin {p : Nat} (hp : 0 < p) (a : Nat → K) (i : Nat) :
    wmaF p (finF a) i = .fin (if i + 1 < p then 0 else
      (∑ j ∈ Finset.range p, a (i + 1 - p + j) * ((j : K) + 1)) / ((p : K) * (p + 1) / 2)) := by
  rw [wmaF]
  by_cases h1 : p = 1
  · subst h1; simp
  · rw [if_neg h1]
    by_cases h : i + 1 < p
    · simp [h]
    · have hpp : 0 < p * (p + 1) / 2 := by
        have : 2 ≤ p * (p + 1) := by nlinarith
        omega
      rw [if_neg h, if_neg h, wmaS_fin hp, tri_shift, fl_nat, fl_nat]
      simp only [add_fin, mul_fin]
      rw [div_fin (natCast_ne hpp), tri_cast]
      congr 2
      obtain ⟨q, rfl⟩ : ∃ q, p = q + 1 := ⟨p - 1, by omega⟩
      rw [Finset.sum_range_succ]
      have : i + 1 - (q + 1) + q = i := by omega
      rw [this]
      simp

/-! ### Variance -/

omit [IsStrictOrderedRing K] in
theorem vTot_fin {p : Nat} (hp : 0 < p) (a : Nat → K) (m : Nat) :
    vTot p (finF a) m = .fin (∑ j ∈ Finset.range (p - 1), a (m + j)) := by
  obtain ⟨q, rfl⟩ : ∃ q, p = q + 1 := ⟨p - 1, by omega⟩
  simp only [Nat.add_sub_cancel]
  induction m with
  | zero => simp [vTot, accum_fin]
  | succ m ih =>
    rw [vTot, ih]
    have h1 := Finset.sum_range_succ (fun j => a (m + j)) q
    have h2 := Finset.sum_range_succ' (fun j => a (m + j)) q
    have h3 : ∀ j, m + 1 + j = m + (j + 1) := fun j => by omega
    simp only [h3, add_fin, sub_fin, Nat.add_sub_cancel, Nat.add_comm q m, fin_inj]
    simp only [Nat.add_zero] at h2
    rw [← h1, h2]; ring

/-- Mean of squares minus square of the mean is the mean squared deviation. -/
theorem var_identity {n : Nat} (hn : 0 < n) (a : Nat → K) :
    (∑ j ∈ Finset.range n, a j * a j) / n
      - (∑ j ∈ Finset.range n, a j) / n * ((∑ j ∈ Finset.range n, a j) / n)
    = (∑ j ∈ Finset.range n, (a j - (∑ j ∈ Finset.range n, a j) / n) ^ 2) / n := by
  have hn' : (n : K) ≠ 0 := natCast_ne hn
  set S := ∑ j ∈ Finset.range n, a j with hS
  have : ∑ j ∈ Finset.range n, (a j - S / n) ^ 2
      = (∑ j ∈ Finset.range n, a j * a j) - 2 * (S / n) * S + n * (S / n) ^ 2 := by
    have : ∀ j, (a j - S / n) ^ 2 = a j * a j - 2 * (S / n) * a j + (S / n) ^ 2 := fun j => by ring
    simp only [this, Finset.sum_add_distrib, Finset.sum_sub_distrib, ← Finset.mul_sum,
      Finset.sum_const, Finset.card_range, nsmul_eq_mul, ← hS]
  rw [this]; field_simp; ring

theorem varF_fin {p : Nat} (hp : 0 < p) (a : Nat → K) (i : Nat) :
    varF p (finF a) i = .fin (if i + 1 < p then 0 else
      (∑ j ∈ Finset.range p, (a (i + 1 - p + j)
        - (∑ j ∈ Finset.range p, a (i + 1 - p + j)) / p) ^ 2) / p) := by
  rw [varF]
  by_cases h : i + 1 < p
  · simp [h]
  · rw [if_neg h, if_neg h]
    have e : (fun j => finF a j *. finF a j) = finF (fun j => a j * a j) := rfl
    rw [e, vTot_fin hp, vTot_fin hp, fl_nat]
    have hp' := natCast_ne (K := K) hp
    simp only [add_fin, mul_fin, div_fin hp', sub_fin]
    congr 1
    rw [← var_identity hp]
    obtain ⟨q, rfl⟩ : ∃ q, p = q + 1 := ⟨p - 1, by omega⟩
    have : i + 1 - (q + 1) + q = i := by omega
    simp only [Finset.sum_range_succ, this, Nat.add_sub_cancel]

/-! ### Linear regression -/

omit [LinearOrder K] [IsStrictOrderedRing K] in
/-- Normal equations give the least-squares line. -/
theorem sqErr_min {n : Nat} (x y : Nat → K) (m b : K)
    (h1 : ∑ j ∈ Finset.range n, (y j - (m * x j + b)) = 0)
    (h2 : ∑ j ∈ Finset.range n, (y j - (m * x j + b)) * x j = 0) (m' b' : K) :
    sqErr n x y m' b' = sqErr n x y m b + ∑ j ∈ Finset.range n, ((m' - m) * x j + (b' - b)) ^ 2 := by
  unfold sqErr
  have : ∀ j, (y j - (m' * x j + b')) ^ 2 = (y j - (m * x j + b)) ^ 2
      + ((m' - m) * x j + (b' - b)) ^ 2
      - 2 * (m' - m) * ((y j - (m * x j + b)) * x j) - 2 * (b' - b) * (y j - (m * x j + b)) :=
    fun j => by ring
  simp only [this, Finset.sum_sub_distrib, Finset.sum_add_distrib, ← Finset.mul_sum, h1, h2]
  ring

theorem normal_eqs {n : Nat} (hn : 0 < n) (x y : Nat → K)
    (hD : (n : K) * (∑ j ∈ Finset.range n, x j * x j)
      - (∑ j ∈ Finset.range n, x j) * (∑ j ∈ Finset.range n, x j) ≠ 0) (m b : K)
    (hm : m = ((n : K) * (∑ j ∈ Finset.range n, x j * y j)
        - (∑ j ∈ Finset.range n, x j) * (∑ j ∈ Finset.range n, y j))
      / ((n : K) * (∑ j ∈ Finset.range n, x j * x j)
        - (∑ j ∈ Finset.range n, x j) * (∑ j ∈ Finset.range n, x j)))
    (hb : b = ((∑ j ∈ Finset.range n, y j) - m * ∑ j ∈ Finset.range n, x j) / n) :
    ∑ j ∈ Finset.range n, (y j - (m * x j + b)) = 0 ∧
    ∑ j ∈ Finset.range n, (y j - (m * x j + b)) * x j = 0 := by
  have hn' : (n : K) ≠ 0 := natCast_ne hn
  set X := ∑ j ∈ Finset.range n, x j with hX
  set Y := ∑ j ∈ Finset.range n, y j with hY
  set XX := ∑ j ∈ Finset.range n, x j * x j with hXX
  set XY := ∑ j ∈ Finset.range n, x j * y j with hXY
  have hm' : m * (n * XX - X * X) = n * XY - X * Y := by rw [hm, div_mul_cancel₀ _ hD]
  have hb' : n * b = Y - m * X := by rw [hb]; field_simp
  constructor
  · have : ∑ j ∈ Finset.range n, (y j - (m * x j + b)) = Y - (m * X + n * b) := by
      simp only [Finset.sum_sub_distrib, Finset.sum_add_distrib, ← Finset.mul_sum, Finset.sum_const,
        Finset.card_range, nsmul_eq_mul, ← hX, ← hY]
    rw [this, hb']; ring
  · have : ∑ j ∈ Finset.range n, (y j - (m * x j + b)) * x j = XY - (m * XX + b * X) := by
      have : ∀ j, (y j - (m * x j + b)) * x j = x j * y j - (m * (x j * x j) + b * x j) :=
        fun j => by ring
      simp only [this, Finset.sum_sub_distrib, Finset.sum_add_distrib, ← Finset.mul_sum, ← hX, ← hXX,
        ← hXY]
    rw [this]
    have : (n : K) * (XY - (m * XX + b * X)) = 0 := by
      linear_combination (-1) * hm' - X * hb'
    rcases mul_eq_zero.mp this with h | h
    · exact absurd h hn'
    · exact h

omit [LinearOrder K] [IsStrictOrderedRing K] in
/-- `n Σx² - (Σx)²` is zero only when all `x` coincide. -/
theorem det_eq {n : Nat} (x : Nat → K) :
    2 * ((n : K) * (∑ j ∈ Finset.range n, x j * x j)
      - (∑ j ∈ Finset.range n, x j) * (∑ j ∈ Finset.range n, x j))
    = ∑ i ∈ Finset.range n, ∑ j ∈ Finset.range n, (x i - x j) ^ 2 := by
  have : ∀ i j, (x i - x j) ^ 2 = x i * x i + x j * x j - 2 * x i * x j := fun i j => by ring
  simp only [this, Finset.sum_sub_distrib, Finset.sum_add_distrib, Finset.sum_const,
    Finset.card_range, nsmul_eq_mul, ← Finset.mul_sum, ← Finset.sum_mul]
  ring

theorem det_pos {n : Nat} (x : Nat → K) {i j : Nat} (hi : i < n) (hj : j < n) (hij : x i ≠ x j) :
    0 < (n : K) * (∑ j ∈ Finset.range n, x j * x j)
      - (∑ j ∈ Finset.range n, x j) * (∑ j ∈ Finset.range n, x j) := by
  have h : 0 < ∑ i ∈ Finset.range n, ∑ j ∈ Finset.range n, (x i - x j) ^ 2 := by
    apply Finset.sum_pos'
    · intro i _; exact Finset.sum_nonneg fun j _ => sq_nonneg _
    · refine ⟨i, by simpa using hi, Finset.sum_pos' (fun j _ => sq_nonneg _) ⟨j, by simpa using hj, ?_⟩⟩
      have : x i - x j ≠ 0 := sub_ne_zero.mpr hij
      positivity
  rw [← det_eq] at h
  linarith

omit [IsStrictOrderedRing K] in
theorem lrXY0_fin (p : Nat) (a : Nat → K) (k : Nat) :
    lrXY0 p (finF a) k = .fin (∑ j ∈ Finset.range k, ((p : K) - 1 - j) * a j) := by
  induction k with
  | zero => simp [lrXY0]
  | succ k ih => rw [lrXY0, ih]; simp [Finset.sum_range_succ]

theorem lrS_fin (p : Nat) (a : Nat → K) (m : Nat) :
    lrS p (finF a) m = (.fin (∑ j ∈ Finset.range p, ((p : K) - 1 - j) * a (m + j)),
      .fin (∑ j ∈ Finset.range p, a (m + j))) := by
  induction m with
  | zero => simp [lrS, lrXY0_fin, accum_fin]
  | succ m ih =>
    rw [lrS, ih]
    have hshift : ∑ j ∈ Finset.range p, a (m + 1 + j)
        = (∑ j ∈ Finset.range p, a (m + j)) + (a (p + m) - a m) := by
      have h1 := Finset.sum_range_succ (fun j => a (m + j)) p
      have h2 := Finset.sum_range_succ' (fun j => a (m + j)) p
      have h3 : ∀ j, m + 1 + j = m + (j + 1) := fun j => by omega
      simp only [h3]
      simp only [Nat.add_zero] at h2
      rw [Nat.add_comm p m]
      linear_combination h1 - h2
    have hw : ∑ j ∈ Finset.range p, ((p : K) - 1 - j) * a (m + 1 + j)
        = (∑ j ∈ Finset.range p, ((p : K) - 1 - j) * a (m + j))
          + ((∑ j ∈ Finset.range p, a (m + j)) - p * a m) := by
      have h1 := Finset.sum_range_succ (fun j => ((p : K) - j) * a (m + j)) p
      have h2 := Finset.sum_range_succ' (fun j => ((p : K) - j) * a (m + j)) p
      have h3 : ∀ j, m + 1 + j = m + (j + 1) := fun j => by omega
      have h4 : ∑ j ∈ Finset.range p, ((p : K) - ((j + 1 : Nat) : K)) * a (m + (j + 1))
          = ∑ j ∈ Finset.range p, ((p : K) - 1 - j) * a (m + (j + 1)) := by
        apply Finset.sum_congr rfl
        intro j _; push_cast; ring
      have h5 : ∑ j ∈ Finset.range p, ((p : K) - j) * a (m + j)
          = (∑ j ∈ Finset.range p, ((p : K) - 1 - j) * a (m + j)) + ∑ j ∈ Finset.range p, a (m + j) := by
        rw [← Finset.sum_add_distrib]
        apply Finset.sum_congr rfl
        intro j _; ring
      simp only [h3]
      simp only [Nat.cast_zero, Nat.add_zero] at h2
      rw [h4] at h2
      rw [h5] at h1
      linear_combination h1 - h2
    simp only [add_fin, sub_fin, mul_fin, fl_nat]
    rw [hw, hshift]

/-- Sum of the positions `0 .. p-1`. -/
theorem sum_pos (p : Nat) : ∑ j ∈ Finset.range p, (j : K) = p * (p - 1) / 2 := by
  induction p with
  | zero => simp
  | succ p ih => rw [Finset.sum_range_succ, ih]; push_cast; ring

/-- Sum of the squared positions. -/
theorem sum_pos_sq (p : Nat) :
    ∑ j ∈ Finset.range p, (j : K) * (j : K) = p * (p - 1) * (2 * p - 1) / 6 := by
  induction p with
  | zero => simp
  | succ p ih => rw [Finset.sum_range_succ, ih]; push_cast; ring

/-- Slope of the least-squares line through `(j, a (s+j))`, `j < p`. -/
def lsSlope (p s : Nat) (a : Nat → K) : K :=
  ((p : K) * (∑ j ∈ Finset.range p, (j : K) * a (s + j))
      - (∑ j ∈ Finset.range p, (j : K)) * (∑ j ∈ Finset.range p, a (s + j)))
    / ((p : K) * (∑ j ∈ Finset.range p, (j : K) * (j : K))
      - (∑ j ∈ Finset.range p, (j : K)) * (∑ j ∈ Finset.range p, (j : K)))

/-- Intercept of that line. -/
def lsIcpt (p s : Nat) (a : Nat → K) : K :=
  ((∑ j ∈ Finset.range p, a (s + j)) - lsSlope p s a * ∑ j ∈ Finset.range p, (j : K)) / p

theorem posDet {p : Nat} (hp : 2 ≤ p) :
    0 < (p : K) * (∑ j ∈ Finset.range p, (j : K) * (j : K))
      - (∑ j ∈ Finset.range p, (j : K)) * (∑ j ∈ Finset.range p, (j : K)) :=
  det_pos (fun j => (j : K)) (i := 0) (j := 1) (by omega) (by omega) (by simp)

theorem lsLine_normal {p : Nat} (hp : 2 ≤ p) (s : Nat) (a : Nat → K) :
    ∑ j ∈ Finset.range p, (a (s + j) - (lsSlope p s a * (j : K) + lsIcpt p s a)) = 0 ∧
    ∑ j ∈ Finset.range p, (a (s + j) - (lsSlope p s a * (j : K) + lsIcpt p s a)) * (j : K) = 0 :=
  normal_eqs (by omega) (fun j => (j : K)) (fun j => a (s + j)) (posDet hp).ne' _ _ rfl rfl

theorem lrSlope_fin {p : Nat} (hp : 2 ≤ p) (a : Nat → K) (i : Nat) (h : ¬ i + 1 < p) :
    lrF lrSlope p (finF a) i = .fin (lsSlope p (i + 1 - p) a) ∧
    lrF lrIntercept p (finF a) i = .fin (lsIcpt p (i + 1 - p) a) ∧
    lrF lrEnd p (finF a) i
      = .fin (lsIcpt p (i + 1 - p) a + lsSlope p (i + 1 - p) a * ((p : K) - 1)) := by
  have hD := (posDet (K := K) hp).ne'
  have hp' : (p : K) ≠ 0 := natCast_ne (by omega)
  set s := i + 1 - p with hs
  set Y := ∑ j ∈ Finset.range p, a (s + j) with hY
  have hXY : ∑ j ∈ Finset.range p, ((p : K) - 1 - j) * a (s + j)
      = ((p : K) - 1) * Y - ∑ j ∈ Finset.range p, (j : K) * a (s + j) := by
    rw [hY, Finset.mul_sum, ← Finset.sum_sub_distrib]
    apply Finset.sum_congr rfl
    intro j _; ring
  have hdiv : (p : K) * (p - 1) * 2⁻¹ * ((p : K) * (p - 1) * 2⁻¹)
      - (p : K) * ((p : K) * (p - 1) * (2 * p - 1) / 6)
      = -((p : K) * (∑ j ∈ Finset.range p, (j : K) * (j : K))
        - (∑ j ∈ Finset.range p, (j : K)) * (∑ j ∈ Finset.range p, (j : K))) := by
    rw [sum_pos, sum_pos_sq]; ring
  have hdiv0 : (p : K) * (p - 1) * 2⁻¹ * ((p : K) * (p - 1) * 2⁻¹)
      - (p : K) * ((p : K) * (p - 1) * (2 * p - 1) / 6) ≠ 0 := by
    rw [hdiv]; exact neg_ne_zero.mpr hD
  have hslope : ((p : K) * (((p : K) - 1) * Y - ∑ j ∈ Finset.range p, (j : K) * a (s + j))
      - (p : K) * (p - 1) * 2⁻¹ * Y)
      / ((p : K) * (p - 1) * 2⁻¹ * ((p : K) * (p - 1) * 2⁻¹)
      - (p : K) * ((p : K) * (p - 1) * (2 * p - 1) / 6)) = lsSlope p s a := by
    rw [lsSlope, hdiv, div_neg, ← neg_div]
    congr 1
    rw [← hY, sum_pos]; ring
  have h6 : (6 : K) ≠ 0 := by norm_num
  have e1 : (fl 1 : XF K) = .fin 1 := by simp
  have e2 : (fl 2 : XF K) = .fin 2 := by simp
  have e6 : (fl 6 : XF K) = .fin 6 := by simp
  have el : (lit (1 / 2) : XF K) = .fin (2⁻¹) := by simp
  have hm : lrSlope (XF.fin (p : K)) (.fin ((p : K) * (p - 1) * 2⁻¹))
      (.fin ((p : K) * (p - 1) * 2⁻¹ * ((p : K) * (p - 1) * 2⁻¹)
      - (p : K) * ((p : K) * (p - 1) * (2 * p - 1) / 6)))
      (.fin (((p : K) - 1) * Y - ∑ j ∈ Finset.range p, (j : K) * a (s + j))) (.fin Y)
      = .fin (lsSlope p s a) := by
    rw [lrSlope]
    simp only [mul_fin, sub_fin]
    rw [div_fin hdiv0, hslope]
  have hi' : lrIntercept (XF.fin (p : K)) (.fin ((p : K) * (p - 1) * 2⁻¹))
      (.fin ((p : K) * (p - 1) * 2⁻¹ * ((p : K) * (p - 1) * 2⁻¹)
      - (p : K) * ((p : K) * (p - 1) * (2 * p - 1) / 6)))
      (.fin (((p : K) - 1) * Y - ∑ j ∈ Finset.range p, (j : K) * a (s + j))) (.fin Y)
      = .fin (lsIcpt p s a) := by
    rw [lrIntercept, hm]
    simp only [mul_fin, sub_fin]
    rw [div_fin hp', lsIcpt, sum_pos, ← hY]
    congr 2
    ring
  have core : ∀ emit : XF K → XF K → XF K → XF K → XF K → XF K, lrF emit p (finF a) i =
      emit (.fin (p : K)) (.fin ((p : K) * (p - 1) * 2⁻¹))
        (.fin ((p : K) * (p - 1) * 2⁻¹ * ((p : K) * (p - 1) * 2⁻¹)
          - (p : K) * ((p : K) * (p - 1) * (2 * p - 1) / 6)))
        (.fin (((p : K) - 1) * Y - ∑ j ∈ Finset.range p, (j : K) * a (s + j))) (.fin Y) := by
    intro emit
    rw [lrF, if_neg h, lrS_fin, fl_nat, e1, e2, e6, el, ← hs, hXY]
    simp only [sub_fin, mul_fin, div_fin h6, ← hY]
  refine ⟨by rw [core, hm], by rw [core, hi'], ?_⟩
  rw [core, lrEnd, hm, hi', e1]
  simp

/-! ### Exponential averages -/

/-- `Ema` over exact numbers. -/
def emaK (p : Nat) (a : Nat → K) : Nat → K
  | 0 => a 0
  | k + 1 => (2 * a (k + 1) + ((p : K) - 1) * emaK p a k) / ((p : K) + 1)

theorem emaF_fin (p : Nat) (a : Nat → K) (i : Nat) : emaF p (finF a) i = .fin (emaK p a i) := by
  induction i with
  | zero => rfl
  | succ k ih =>
    have h : ((p : K) + 1) ≠ 0 := by
      have : (0 : K) ≤ (p : K) := Nat.cast_nonneg p
      positivity
    rw [emaF, ih]
    have e1 : (fl ((p : Int) - 1) : XF K) = .fin ((p : K) - 1) := by simp
    have e2 : (fl ((p : Int) + 1) : XF K) = .fin ((p : K) + 1) := by simp
    have e3 : (fl 2 : XF K) = .fin 2 := by simp
    rw [e1, e2, e3]
    simp only [mul_fin, add_fin, div_fin h]
    rfl

/-- `Rma` over exact numbers: `sum` and result. -/
def rmaK (p : Nat) (a : Nat → K) : Nat → K × K
  | 0 => (0, 0)
  | k + 1 =>
    if k + 1 < p then
      let s := (rmaK p a k).1 + a (k + 1)
      (s, s / ((k : K) + 2))
    else
      let s := (rmaK p a k).2 * ((p : K) - 1) + a (k + 1)
      (s, s / p)

theorem rmaS_fin {p : Nat} (hp : 0 < p) (a : Nat → K) (i : Nat) :
    rmaS p (finF a) i = (.fin (rmaK p a i).1, .fin (rmaK p a i).2) := by
  induction i with
  | zero => simp [rmaS, rmaK]
  | succ k ih =>
    rw [rmaS, rmaK, ih]
    have hp' : (p : K) ≠ 0 := natCast_ne hp
    have hk' : ((k : K) + 2) ≠ 0 := by
      have : (0 : K) ≤ (k : K) := Nat.cast_nonneg k
      positivity
    have e1 : (fl ((p : Int) - 1) : XF K) = .fin ((p : K) - 1) := by simp
    have e2 : (fl (((k + 1 : Nat) : Int) + 1) : XF K) = .fin ((k : K) + 2) := by
      simp; ring
    by_cases h : k + 1 < p
    · rw [if_pos (by omega), if_pos h, e2]
      simp only [add_fin, div_fin hk']
    · rw [if_neg (by omega), if_neg h, e1, fl_nat]
      simp only [add_fin, mul_fin, div_fin hp']

theorem rmaF_fin {p : Nat} (hp : 0 < p) (a : Nat → K) (i : Nat) :
    rmaF p (finF a) i = .fin (rmaK p a i).2 := by rw [rmaF, rmaS_fin hp]

/-! ### True range -/

theorem trStep_fin (h l c : K) :
    trStep (XF.fin h) (.fin l) (.fin c) = .fin (max (max (h - l) |c - h|) |c - l|) := by
  simp only [trStep, sub_fin, abs_fin', lt_fin]
  by_cases h1 : h - l < |c - h|
  · simp only [h1, decide_true, if_true, lt_fin, max_eq_right h1.le]
    by_cases h2 : |c - h| < |c - l|
    · simp [h2, max_eq_right h2.le]
    · simp [h2, max_eq_left (not_lt.mp h2)]
  · simp only [h1, decide_false, Bool.false_eq_true, if_false, lt_fin, max_eq_left (not_lt.mp h1)]
    by_cases h2 : h - l < |c - l|
    · simp [h2, max_eq_right h2.le]
    · simp [h2, max_eq_left (not_lt.mp h2)]

/-- `TRange` over exact numbers. -/
def trK (h l c : Nat → K) : Nat → K
  | 0 => 0
  | k + 1 => max (max (h (k + 1) - l (k + 1)) |c k - h (k + 1)|) |c k - l (k + 1)|

theorem trF_fin (h l c : Nat → K) : trF (finF h) (finF l) (finF c) = finF (trK h l c) := by
  funext i
  cases i with
  | zero => simp [trF, trK]
  | succ k => rw [trF, trStep_fin]; rfl

/-- The Wilder recursion over exact numbers. -/
def wilderK (p : Nat) (start : K) (tr : Nat → K) : Nat → K
  | 0 => start
  | m + 1 => (wilderK p start tr m * ((p : K) - 1) + tr (p + (m + 1))) / p

theorem wilder_fin {p : Nat} (hp : 0 < p) (start : K) (tr : Nat → K) (m : Nat) :
    wilder p (.fin start) (finF tr) m = .fin (wilderK p start tr m) := by
  induction m with
  | zero => rfl
  | succ m ih =>
    have hp' : (p : K) ≠ 0 := natCast_ne hp
    have e1 : (fl 1 : XF K) = .fin 1 := by simp
    rw [wilder, ih, fl_nat, e1]
    simp only [sub_fin, mul_fin, add_fin, div_fin hp']
    rfl

theorem atrF_fin {p : Nat} (hp : 0 < p) (h l c : Nat → K) (i : Nat) :
    atrF p (finF h) (finF l) (finF c) i
      = .fin (if i < p then 0 else wilderK p (rmaK p (trK h l c) p).2 (trK h l c) (i - p)) := by
  rw [atrF]
  by_cases hi : i < p
  · simp [hi]
  · rw [if_neg hi, if_neg hi, trF_fin, rmaF_fin hp, wilder_fin hp]

end ordered

end Verif.Ta
