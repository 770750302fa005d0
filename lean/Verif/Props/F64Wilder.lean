import Verif.Props.F64Track
import Verif.Props.Stable

/-!
# Wilder averages, ranges and channels in float64 track the exact ones (C143)
-/

namespace Verif.Props
open Verif Verif.Klines Verif.Ta Verif.Ind GoFloat

/-- Rounding a number of size at most `m 2^k`. -/
theorem round64_near {m : Nat} (hm : 1 ≤ m) (hm' : m ≤ 2 ^ 52) {q : ℚ} {k : ℤ} (hk : -1021 ≤ k) (hk' : k ≤ 901)
    (h : |q| ≤ m * 2 ^ k) : ∃ r, round64 q = .fin r ∧ |r| ≤ m * 2 ^ k ∧ |r - q| ≤ 2 * m * 2 ^ (k - 54) := by
  obtain ⟨c, hc1, hc2⟩ := exists_pow_between hm
  have hc52 : c ≤ 53 := by
    by_contra h
    have : 2 ^ 54 ≤ 2 ^ c := Nat.pow_le_pow_right (by norm_num) (by omega)
    norm_num at this hm' ⊢; omega
  have hc1' : (m : ℚ) ≤ 2 ^ c := by exact_mod_cast hc1
  have hc2' : (2 : ℚ) ^ c ≤ 2 * m := by exact_mod_cast hc2
  have hcz : ∀ j : ℤ, (2 : ℚ) ^ ((c : ℤ) + j) = 2 ^ c * 2 ^ j := fun j => by
    rw [zpow_add₀ (by norm_num), zpow_natCast]
  have h2 : ∀ j : ℤ, (0 : ℚ) ≤ 2 ^ j := fun j => (zpow_pos (by norm_num) _).le
  obtain ⟨r, hr, -, he⟩ := round64_error (q := q) (k := c + k) (by omega) (by omega)
    (by rw [hcz]; exact h.trans (mul_le_mul_of_nonneg_right hc1' (h2 k)))
  have hs : SRep ((m : ℚ) * 2 ^ k) := by
    have := srep_scaled (n := (m : ℤ)) (e := k) (by rw [abs_of_nonneg (by omega)]; omega) (by omega) (by omega)
    push_cast at this; exact this
  obtain ⟨r', hr', b1, b2⟩ := round64_between hs.neg hs (abs_le.mp h).1 (abs_le.mp h).2
  rw [hr] at hr'
  cases hr'
  refine ⟨r, hr, abs_le.mpr ⟨b1, b2⟩, he.trans ?_⟩
  rw [show (c : ℤ) + k - 54 = c + (k - 54) by ring, hcz]
  exact mul_le_mul_of_nonneg_right hc2' (h2 _)

/-- One step of the Wilder recursion. -/
theorem wilder_step64 {p : Nat} (hp : 1 ≤ p) (hp' : p ≤ 2 ^ 52) {k : ℤ} (hk : -1021 ≤ k) (hk' : k ≤ 901) {ε : ℚ} (_h0 : 0 ≤ ε)
    {T X Y P : B64} {t A v a p1 p0 : ℚ} (ht : T.val = .fin t) (tb : |t| ≤ 2 ^ k) (te : |t - A| ≤ ε + p * (8 * 2 ^ (k - 54)))
    (hx : X.val = .fin v) (hb : |v| ≤ 2 ^ k) (he : |v - a| ≤ ε) (hY : Y.val = .fin p1) (hP : P.val = .fin p0)
    (e1 : p1 = (p : ℚ) - 1) (e0 : p0 = p) :
    ∃ q r, ((T *. Y) +. X).val = .fin q ∧ (((T *. Y) +. X) /. P).val = .fin r ∧ |r| ≤ 2 ^ k ∧
      |r - (A * ((p : ℚ) - 1) + a) / p| ≤ ε + p * (8 * 2 ^ (k - 54)) := by
  subst e1 e0
  have hU : (0 : ℚ) < 2 ^ (k - 54) := zpow_pos (by norm_num) _
  have hp1 : (1 : ℚ) ≤ p := by exact_mod_cast hp
  obtain ⟨q1, r1, b1, e1⟩ := round64_near (m := p) hp hp' hk hk' (q := t * ((p : ℚ) - 1))
    (by
      rw [abs_mul, abs_of_nonneg (show (0 : ℚ) ≤ (p : ℚ) - 1 by linarith), mul_comm]
      exact mul_le_mul (by linarith) tb (abs_nonneg _) (by linarith))
  have b1' : |q1| ≤ ((p : ℚ) - 1) * 2 ^ k := by
    have hs : SRep (((p : ℚ) - 1) * 2 ^ k) := by
      have := srep_scaled (n := (p : ℤ) - 1) (e := k) (by rw [abs_of_nonneg (by omega)]; omega) (by omega) (by omega)
      push_cast at this; exact this
    have hq : |t * ((p : ℚ) - 1)| ≤ ((p : ℚ) - 1) * 2 ^ k := by
      rw [abs_mul, abs_of_nonneg (show (0 : ℚ) ≤ (p : ℚ) - 1 by linarith), mul_comm]
      exact mul_le_mul_of_nonneg_left tb (by linarith)
    obtain ⟨r', hr', c1, c2⟩ := round64_between hs.neg hs (abs_le.mp hq).1 (abs_le.mp hq).2
    rw [r1] at hr'
    cases hr'
    exact abs_le.mpr ⟨c1, c2⟩
  obtain ⟨q2, r2, b2, e2⟩ := round64_near (m := p) hp hp' hk hk' (q := q1 + v)
    ((abs_add_le _ _).trans (by linarith))
  have hp0 : (0 : ℚ) < p := by linarith
  have b3 : |q2 / p| ≤ 2 ^ k := by
    rw [abs_div, abs_of_pos hp0, div_le_iff₀ hp0]; linarith
  obtain ⟨t', r3, b3, e3⟩ := round64_error (q := q2 / p) hk (by omega) b3
  have h1 := (B64.val_mul ht hY).trans r1
  have h2 := (B64.val_add h1 hx).trans r2
  have h3 := (B64.val_div h2 hP hp0.ne').trans r3
  refine ⟨q2, t', h2, h3, b3, ?_⟩
  have w5 : |t * ((p : ℚ) - 1) - A * (p - 1)| ≤ (ε + p * (8 * 2 ^ (k - 54))) * (p - 1) := by
    rw [← sub_mul, abs_mul, abs_of_nonneg (show (0 : ℚ) ≤ (p : ℚ) - 1 by linarith)]
    exact mul_le_mul_of_nonneg_right te (by linarith)
  have w6 : |q2 - (A * ((p : ℚ) - 1) + a)| ≤ p * (ε + p * (8 * 2 ^ (k - 54)) - 2 ^ (k - 54)) := by
    have g : (ε + p * (8 * 2 ^ (k - 54))) * ((p : ℚ) - 1) + ε + 4 * p * 2 ^ (k - 54) ≤
      p * (ε + p * (8 * 2 ^ (k - 54)) - 2 ^ (k - 54)) := by nlinarith
    rw [abs_le] at *
    constructor <;> linarith
  have w7 : |q2 / p - (A * ((p : ℚ) - 1) + a) / p| ≤ ε + p * (8 * 2 ^ (k - 54)) - 2 ^ (k - 54) := by
    rw [← sub_div, abs_div, abs_of_pos hp0, div_le_iff₀ hp0]; linarith
  rw [abs_le] at *
  constructor <;> linarith

theorem rmaS_track {p : Nat} (hp : 1 ≤ p) (hp' : p ≤ 2 ^ 52) {k : ℤ} (hk : -1021 ≤ k) (hk' : k ≤ 901)
    {x : Nat → B64} {v a : Nat → ℚ} {ε : ℚ} (h0 : 0 ≤ ε) (n : Nat) (hx : ∀ j ≤ n, (x j).val = .fin (v j))
    (hb : ∀ j ≤ n, |v j| ≤ 2 ^ k) (he : ∀ j, 1 ≤ j → j ≤ n → |v j - a j| ≤ ε) :
    ∃ s t, (rmaS p x n).1.val = .fin s ∧ (rmaS p x n).2.val = .fin t ∧ |t| ≤ 2 ^ k ∧
      |t - (rmaK p a n).2| ≤ ε + p * 2 ^ (k - 51) ∧
      (n < p → |s| ≤ n * 2 ^ k ∧ |s - (rmaK p a n).1| ≤ n * (ε + 2 * p * 2 ^ (k - 54))) := by
  have hU : (0 : ℚ) < 2 ^ (k - 54) := zpow_pos (by norm_num) _
  have hK : (0 : ℚ) < 2 ^ k := zpow_pos (by norm_num) _
  have h51 : (2 : ℚ) ^ (k - 51) = 8 * 2 ^ (k - 54) := by
    rw [show k - 51 = k - 54 + 3 by ring, zpow_add₀ (by norm_num)]; norm_num; ring
  have hp1 : (1 : ℚ) ≤ p := by exact_mod_cast hp
  rw [h51]
  induction n with
  | zero =>
    refine ⟨0, 0, val_zero64, val_zero64, by simpa using hK.le, ?_, fun _ => ?_⟩
    · simp only [rmaK, sub_self, abs_zero]; positivity
    · simp [rmaK]
  | succ n ih =>
    obtain ⟨s, t, hs, ht, tb, te, hw⟩ := ih (fun j hj => hx j (by omega)) (fun j hj => hb j (by omega))
      (fun j h1 hj => he j h1 (by omega))
    have hxn := hx (n + 1) le_rfl
    have hbn := hb (n + 1) le_rfl
    have hen := he (n + 1) (by omega) le_rfl
    rw [rmaS, rmaK]
    by_cases hc : n + 1 < p
    · rw [if_pos (by exact_mod_cast hc), if_pos hc]
      obtain ⟨w1, w2⟩ := hw (by omega)
      obtain ⟨s', r1, b1, e1⟩ := round64_near (m := n + 1) (by omega) (by omega) hk hk' (q := s + v (n + 1))
        ((abs_add_le _ _).trans (by push_cast; linarith))
      have hn2 : (0 : ℚ) < (n : ℚ) + 2 := by positivity
      have q1 : |s' / (n + 2)| ≤ 2 ^ k := by
        rw [abs_div, abs_of_pos hn2, div_le_iff₀ hn2]
        push_cast at b1; nlinarith
      obtain ⟨t', r2, b2, e2⟩ := round64_error (q := s' / (n + 2)) hk (by omega) q1
      have ecast : ((((n + 1 : Nat) : ℤ) + 1 : ℤ) : ℚ) = n + 2 := by push_cast; ring
      have hs' := (B64.val_add hs hxn).trans r1
      have ht' := (B64.val_div hs' (B64.val_fl (((n + 1 : Nat) : ℤ) + 1) (by rw [abs_of_nonneg (by omega)]; omega))
        (by rw [ecast]; exact hn2.ne')).trans (b := round64 _) (by rw [ecast])
      rw [r2] at ht'
      have hnp : ((n + 1 : Nat) : ℚ) ≤ p := by exact_mod_cast hc.le
      have g1 : |s' - ((rmaK p a n).1 + a (n + 1))| ≤ ((n + 1 : Nat) : ℚ) * (ε + 2 * p * 2 ^ (k - 54)) := by
        have : 2 * ((n + 1 : Nat) : ℚ) * 2 ^ (k - 54) ≤ 2 * p * 2 ^ (k - 54) := by
          exact mul_le_mul_of_nonneg_right (by linarith) hU.le
        have e : s' - ((rmaK p a n).1 + a (n + 1)) = (s' - (s + v (n + 1))) + (s - (rmaK p a n).1) + (v (n + 1) - a (n + 1)) := by ring
        rw [e]
        refine (abs_add_le _ _).trans ((add_le_add ((abs_add_le _ _).trans (add_le_add (e1.trans this) w2)) hen).trans
          (le_of_eq ?_))
        push_cast; ring
      refine ⟨s', t', hs', ht', b2, ?_, fun _ => ⟨b1, g1⟩⟩
      have g2 : |s' / (n + 2) - ((rmaK p a n).1 + a (n + 1)) / (n + 2)| ≤ ε + 2 * p * 2 ^ (k - 54) := by
        rw [← sub_div, abs_div, abs_of_pos hn2, div_le_iff₀ hn2]
        refine g1.trans ?_
        push_cast
        have : 0 ≤ ε + 2 * p * 2 ^ (k - 54) := by positivity
        nlinarith
      have : (2 : ℚ) ^ (k - 54) ≤ p * 2 ^ (k - 54) := le_mul_of_one_le_left hU.le hp1
      rw [abs_le] at *
      constructor <;> linarith
    · rw [if_neg (by exact_mod_cast hc), if_neg hc]
      obtain ⟨q, r, h1, h2, h3, h4⟩ := wilder_step64 hp hp' hk hk' h0 ht tb te hxn hbn hen
        (B64.val_fl ((p : ℤ) - 1) (by rw [abs_of_nonneg (by omega)]; omega))
        (B64.val_fl (p : ℤ) (by rw [abs_of_nonneg (by omega)]; omega)) (by push_cast; rfl) (by push_cast; rfl)
      exact ⟨q, r, h1, h2, h3, h4, fun h => absurd h hc⟩

/-- **C143 (Rma).** The float64 Wilder average of numbers of size at most `2^k` is within `p 2^(k - 51)` of the exact one,
at every position of a list of any length. -/
theorem C143_rma {p : Nat} (hp : 1 ≤ p) (hp' : p ≤ 2 ^ 52) {k : ℤ} (hk : -1021 ≤ k) (hk' : k ≤ 900)
    {xs : List B64} {as : List ℚ} (hv : Vals xs as) (hb : ∀ v ∈ as, |v| ≤ 2 ^ k) :
    ∃ (r : List B64) (e : List ℚ), Rma p xs = .ok r ∧ Rma p (as.map .fin : List (XF ℚ)) = .ok (e.map .fin) ∧
      r.length = as.length ∧ e.length = as.length ∧
      ∀ (i : Nat) (u : B64) (v : ℚ), r[i]? = some u → e[i]? = some v → ∃ s, u.val = .fin s ∧ |s - v| ≤ p * 2 ^ (k - 51) := by
  obtain ⟨x, a, hx, ha, hxa⟩ := hv.tabs
  refine ⟨tab as.length (rmaF p x), tab as.length (fun i => (rmaK p a i).2), by rw [hx]; exact Rma_tab _ _ _, ?_, by simp, by simp, ?_⟩
  · rw [map_tab]
    conv_lhs => rw [ha, map_tab]
    refine (Rma_tab _ _ _).trans (congrArg _ (tab_ext fun i _ => ?_))
    exact rmaF_fin hp a i
  · intro i u v hu hvv
    have hi : i < as.length := by simpa using (List.getElem?_eq_some_iff.mp hu).1
    rw [tab_getElem?_lt hi] at hu hvv
    cases hu; cases hvv
    obtain ⟨s, t, -, h1, -, h3, -⟩ := rmaS_track hp hp' hk (by omega) (ε := 0) le_rfl (a := a) i (fun j _ => hxa j)
      (fun j hj => hb _ (by rw [ha]; exact mem_tab.mpr ⟨j, by omega, rfl⟩)) (fun j _ _ => by simp)
    exact ⟨t, h1, by linarith⟩

/-- The columns of a float64 and of an exact series with the same bars. -/
theorem both_bars {it : Item B64} {itX : Item (XF ℚ)} {bs : List (Bar ℚ)} (h : Holds64 it bs) (hX : Holds itX bs) :
    ∃ x y b, it.candles = tab bs.length x ∧ itX.candles = tab bs.length y ∧ Cols64 x b ∧ Cols bs.length y b ∧
      ∀ i < bs.length, bs[i]? = some (b i) := by
  obtain ⟨x, b, hx, hb, hc, h0⟩ := h.cols
  obtain ⟨y, b', hy, hb', hc', h0'⟩ := hX.cols₀
  have e : b' = b := by
    funext i
    rcases lt_or_ge i bs.length with hi | hi
    · have h1 := tab_getElem?_lt (x := b) hi
      have h2 := tab_getElem?_lt (x := b') hi
      rw [← hb] at h1; rw [← hb'] at h2
      exact Option.some.inj (h2.symm.trans h1)
    · rw [h0 i hi, h0' i hi]
  subst e
  exact ⟨x, y, b', hx, hy, hc, hc', fun i hi => by rw [hb']; exact tab_getElem?_lt hi⟩

/-- Prices of size at most `2^k`. -/
def PricesUpTo (k : ℤ) (bs : List (Bar ℚ)) : Prop := ∀ b ∈ bs, |b.h| ≤ 2 ^ k ∧ |b.l| ≤ 2 ^ k ∧ |b.c| ≤ 2 ^ k

theorem sub_track {k : ℤ} (hk : -1021 ≤ k) (hk' : k ≤ 900) {x y : B64} {a b : ℚ} (hx : x.val = .fin a)
    (hy : y.val = .fin b) (ha : |a| ≤ 2 ^ k) (hb : |b| ≤ 2 ^ k) :
    ∃ r, (x -. y).val = .fin r ∧ |r| ≤ 2 ^ (k + 1) ∧ |r - (a - b)| ≤ 2 * 2 ^ (k - 54) := by
  obtain ⟨r, h1, h2, h3⟩ := round64_error (q := a - b) (k := k + 1) (by omega) (by omega)
    ((abs_sub _ _).trans (by rw [zpow_add_one₀ (by norm_num)]; linarith))
  refine ⟨r, (B64.val_sub hx hy).trans h1, h2, h3.trans (le_of_eq ?_)⟩
  rw [show k + 1 - 54 = k - 54 + 1 by ring, zpow_add_one₀ (by norm_num)]; ring

/-- The true range as `Atr` computes it, in float64. -/
theorem trI_track {k : ℤ} (hk : -1021 ≤ k) (hk' : k ≤ 900) {x : Nat → Candle B64} {b : Nat → Bar ℚ} (hc : Cols64 x b)
    (i : Nat) (hb : ∀ j ≤ i, |(b j).h| ≤ 2 ^ k ∧ |(b j).l| ≤ 2 ^ k ∧ |(b j).c| ≤ 2 ^ k) :
    ∃ r, (trI x i).val = .fin r ∧ |r| ≤ 2 ^ (k + 1) ∧
      |r - rangeOf (fun i => (b i).h) (fun i => (b i).l) (fun i => (b i).c) i| ≤ 2 * 2 ^ (k - 54) := by
  obtain ⟨h1, h2, -⟩ := hb i le_rfl
  obtain ⟨c, hcv, hc1, e⟩ : ∃ c, (if i = 0 then fl 0 else Ind.cl x (i - 1) : B64).val = .fin c ∧ |c| ≤ 2 ^ k ∧
      c = if i = 0 then 0 else (b (i - 1)).c := by
    split
    · exact ⟨0, val_zero64, by rw [abs_zero]; exact (zpow_pos (by norm_num) _).le, rfl⟩
    · exact ⟨_, hc.cl _, (hb (i - 1) (by omega)).2.2, rfl⟩
  obtain ⟨u, hu, u1, u2⟩ := sub_track hk hk' (hc.hi i) (hc.lo i) h1 h2
  obtain ⟨v, hv, v1, v2⟩ := sub_track hk hk' (hc.hi i) hcv h1 hc1
  obtain ⟨w, hw, w1, w2⟩ := sub_track hk hk' (hc.lo i) hcv h2 hc1
  refine ⟨_, B64.val_max hu (B64.val_max hv hw), ?_, ?_⟩
  · exact abs_le.mpr ⟨(abs_le.mp u1).1.trans (le_max_left _ _), max_le (abs_le.mp u1).2 (max_le (abs_le.mp v1).2 (abs_le.mp w1).2)⟩
  · simp only [rangeOf, ← e]
    exact near_max u2 (near_max v2 w2)

theorem atrF_track {p : Nat} (hp : 1 ≤ p) (hp' : p ≤ 2 ^ 52) {k : ℤ} (hk : -1021 ≤ k) (hk' : k ≤ 900)
    {x : Nat → Candle B64} {b : Nat → Bar ℚ} (hc : Cols64 x b)
    (i : Nat) (hb : ∀ j ≤ i, |(b j).h| ≤ 2 ^ k ∧ |(b j).l| ≤ 2 ^ k ∧ |(b j).c| ≤ 2 ^ k) :
    ∃ r, (rmaF p (trI x) i).val = .fin r ∧ |r| ≤ 2 ^ (k + 1) ∧
      |r - (rmaK p (rangeOf (fun i => (b i).h) (fun i => (b i).l) (fun i => (b i).c)) i).2| ≤ (p + 1) * 2 ^ (k - 50) := by
  have key : ∀ j, ∃ r, j ≤ i → (trI x j).val = .fin r ∧ |r| ≤ 2 ^ (k + 1) ∧
      |r - rangeOf (fun i => (b i).h) (fun i => (b i).l) (fun i => (b i).c) j| ≤ 2 * 2 ^ (k - 54) := by
    intro j
    by_cases hj : j ≤ i
    · obtain ⟨r, hr⟩ := trI_track hk hk' hc j fun m hm => hb m (by omega)
      exact ⟨r, fun _ => hr⟩
    · exact ⟨0, fun h => absurd h hj⟩
  choose v hv using key
  have hU : (0 : ℚ) < 2 ^ (k - 54) := zpow_pos (by norm_num) _
  obtain ⟨s, t, -, h1, h2, h3, -⟩ := rmaS_track hp hp' (k := k + 1) (by omega) (by omega)
    (ε := 2 * 2 ^ (k - 54)) (by positivity) (a := rangeOf (fun i => (b i).h) (fun i => (b i).l) (fun i => (b i).c)) i
    (fun j hj => (hv j hj).1) (fun j hj => (hv j hj).2.1) (fun j _ hj => (hv j hj).2.2)
  refine ⟨t, h1, h2, h3.trans ?_⟩
  have e1 : (2 : ℚ) ^ (k + 1 - 51) = 2 ^ (k - 50) := by congr 1; ring
  have e2 : (2 : ℚ) ^ (k - 50) = 16 * 2 ^ (k - 54) := by
    rw [show k - 50 = k - 54 + 4 by ring, zpow_add₀ (by norm_num)]; norm_num; ring
  rw [e1, e2]; linarith

/-- **C143 (Atr).** With prices of size at most `2^k`, the float64 average true range is within `(p + 1) 2^(k - 50)` of the
exact one at every candle. -/
theorem C143_atr {p : Nat} (hp : 1 ≤ p) (hp' : p ≤ 2 ^ 52) {k : ℤ} (hk : -1021 ≤ k) (hk' : k ≤ 900) {it : Item B64}
    {itX : Item (XF ℚ)} {bs : List (Bar ℚ)} (h : Holds64 it bs) (hX : Holds itX bs) (hb : PricesUpTo k bs) :
    ∃ d e, (ATR p).data it = .ok d ∧ (ATR p).data itX = .ok e ∧ d.length = bs.length ∧ e.length = bs.length ∧
      ∀ (i : Nat) r t, d[i]? = some r → e[i]? = some t → ∃ u v, r.atr.val = .fin u ∧ t.atr = .fin v ∧
        |u - v| ≤ (p + 1) * 2 ^ (k - 50) := by
  obtain ⟨x, y, b, hx, hy, hc, hc', hm⟩ := both_bars h hX
  refine ⟨_, _, ((ATR.makes p).yields it _ x hx).1 trivial, ((ATR.makes p).yields itX _ y hy).1 trivial, by simp, by simp, ?_⟩
  intro i r t hr ht
  have hi : i < bs.length := by simpa using (List.getElem?_eq_some_iff.mp hr).1
  rw [tab_getElem?_lt hi] at hr ht
  cases hr; cases ht
  obtain ⟨u, h1, -, h3⟩ := atrF_track hp hp' hk hk' hc i fun j hj => hb _ (List.mem_of_getElem? (hm j (by omega)))
  refine ⟨u, _, h1, ?_, h3⟩
  show rmaF (p : Int) (trI y) i = _
  rw [trI_fin hc', rmaF_fin hp]
  rfl

/-- **C143 (KeltnerChannel).** With prices of size at most `2^k`, each of the three float64 lines is within
`(p + 1) 2^(k - 48)` of the exact one at every candle. -/
theorem C143_keltner_lines {p : Nat} (hp : 1 ≤ p) (hp' : p + 1 ≤ 2 ^ 52) {k : ℤ} (hk : -1021 ≤ k) (hk' : k ≤ 900)
    {it : Item B64} {itX : Item (XF ℚ)} {bs : List (Bar ℚ)} (h : Holds64 it bs) (hX : Holds itX bs) (hb : PricesUpTo k bs) :
    ∃ d e, (Keltner p).data it = .ok d ∧ (Keltner p).data itX = .ok e ∧ d.length = bs.length ∧ e.length = bs.length ∧
      ∀ (i : Nat) r t, d[i]? = some r → e[i]? = some t → ∃ u m l u' m' l', r.upper.val = .fin u ∧ r.middle.val = .fin m ∧
        r.lower.val = .fin l ∧ t.upper = .fin u' ∧ t.middle = .fin m' ∧ t.lower = .fin l' ∧
        |u - u'| ≤ (p + 1) * 2 ^ (k - 48) ∧ |m - m'| ≤ (p + 1) * 2 ^ (k - 51) ∧ |l - l'| ≤ (p + 1) * 2 ^ (k - 48) := by
  obtain ⟨x, y, b, hx, hy, hc, hc', hm⟩ := both_bars h hX
  refine ⟨_, _, ((Keltner.appends p).yields it _ x hx).1 trivial, ((Keltner.appends p).yields itX _ y hy).1 trivial,
    by simp, by simp, ?_⟩
  intro i r t hr ht
  have hi : i < bs.length := by simpa using (List.getElem?_eq_some_iff.mp hr).1
  rw [tab_getElem?_lt hi] at hr ht
  cases hr; cases ht
  have hbi : ∀ j ≤ i, |(b j).h| ≤ 2 ^ k ∧ |(b j).l| ≤ 2 ^ k ∧ |(b j).c| ≤ 2 ^ k := fun j hj => hb _ (List.mem_of_getElem? (hm j (by omega)))
  obtain ⟨a, h1, h2, h3⟩ := atrF_track hp (by omega) hk hk' hc i hbi
  obtain ⟨m, g1, g2, g3⟩ := emaF_track hp hp' hk hk' (ε := 0) (a := fun i => (b i).c) i (fun j _ => hc.cl j)
    (fun j hj => (hbi j hj).2.2) (fun j _ => by simp)
  set A := (rmaK p (rangeOf (fun i => (b i).h) (fun i => (b i).l) (fun i => (b i).c)) i).2 with hA
  set M := emaK p (fun i => (b i).c) i with hM
  have hU : (0 : ℚ) < 2 ^ (k - 54) := zpow_pos (by norm_num) _
  have e3 : ∀ m : ℤ, (2 : ℚ) ^ (k + m - 54) = 2 ^ m * 2 ^ (k - 54) := fun m => by
    rw [show k + m - 54 = m + (k - 54) by ring, zpow_add₀ (by norm_num)]
  have e4 : ∀ m : ℤ, (2 : ℚ) ^ (k + m) = 2 ^ m * 2 ^ k := fun m => by rw [add_comm, zpow_add₀ (by norm_num)]
  have hK : (0 : ℚ) < 2 ^ k := zpow_pos (by norm_num) _
  obtain ⟨q, r1, b1, w1⟩ := round64_error (q := a * 2) (k := k + 2) (by omega) (by omega)
    (by rw [abs_mul, e4]; rw [e4] at h2; norm_num at h2 ⊢; linarith)
  have hq := (B64.val_mul h1 (B64.val_fl 2 (by norm_num))).trans (by push_cast; exact r1)
  have hmq : |m| + |q| ≤ 2 ^ (k + 3) := by rw [e4]; rw [e4] at b1; norm_num at b1 ⊢; linarith
  obtain ⟨u, r2, -, w2⟩ := round64_error (q := m + q) (k := k + 3) (by omega) (by omega) ((abs_add_le _ _).trans hmq)
  obtain ⟨l, r3, -, w3⟩ := round64_error (q := m - q) (k := k + 3) (by omega) (by omega) ((abs_sub _ _).trans hmq)
  have ea : rmaF (p : Int) (trI y) i = .fin A := by rw [trI_fin hc', rmaF_fin hp]; rfl
  have em : emaF (p : Int) (Ind.cl y) i = .fin M := by rw [hc'.cl, emaF_fin]
  refine ⟨u, m, l, M + A * 2, M, M - A * 2, (B64.val_add g1 hq).trans r2, g1, (val_subF g1 hq).trans r3, ?_, em, ?_, ?_,
    by linarith, ?_⟩
  · show emaF (p : Int) (Ind.cl y) i +. rmaF (p : Int) (trI y) i *. fl 2 = _
    rw [ea, em]; simp
  · show subF (emaF (p : Int) (Ind.cl y) i) (rmaF (p : Int) (trI y) i *. fl 2) = _
    rw [ea, em]; simp [subF, sub_eq_add_neg]
  all_goals
    rw [show k - 48 = k + 6 - 54 by ring, e3]
    rw [show k - 50 = k + 4 - 54 by ring, e3] at h3
    rw [show k - 51 = k + 3 - 54 by ring, e3] at g3
    rw [e3] at w1 w2 w3
    have hp1 : (1 : ℚ) ≤ p := by exact_mod_cast hp
    have : (2 : ℚ) ^ (k - 54) ≤ p * 2 ^ (k - 54) := le_mul_of_one_le_left hU.le hp1
    norm_num at h3 g3 w1 w2 w3 ⊢
    rw [abs_le] at *
    constructor <;> linarith

/-- **C143 (KeltnerChannel signals).** If from the second candle on the close is more than `(p + 1) 2^(k - 51)` away from the
exact middle line, the float64 signals are the exact ones. -/
theorem C143_keltner {p : Nat} (hp : 1 ≤ p) (hp' : p + 1 ≤ 2 ^ 52) {k : ℤ} (hk : -1021 ≤ k) (hk' : k ≤ 900)
    {it : Item B64} {itX : Item (XF ℚ)} {bs : List (Bar ℚ)} (h : Holds64 it bs) (hX : Holds itX bs)
    (hb : ∀ b ∈ bs, |b.c| ≤ 2 ^ k) {d : List (Band (XF ℚ))} (hd : (Keltner p).data itX = .ok d)
    (hgap : ∀ i r b, 1 ≤ i → d[i]? = some r → bs[i]? = some b → ∃ m, r.middle = .fin m ∧
      ((p : ℚ) + 1) * 2 ^ (k - 51) < |b.c - m|) :
    (Keltner p).signals it = (Keltner p).signals itX := by
  obtain ⟨x, y, b, hx, hy, hc, hc', hm⟩ := both_bars h hX
  obtain ⟨-, rfl⟩ := yields_inv (Keltner.appends p).yields hy hd
  rw [(Keltner.signals p it _ x hx).1 trivial, (Keltner.signals p itX _ y hy).1 trivial]
  refine congrArg _ (tab_ext fun i hi => ?_)
  have key : ∀ n < bs.length, Alike (Ind.cl x n) (emaF p (Ind.cl x) n) (Ind.cl y n) (emaF p (Ind.cl y) n) := by
    intro n hn
    rw [hc'.cl, emaF_fin]
    cases n with
    | zero => exact alike_of_eq (hc.cl 0) (hc.cl 0)
    | succ n =>
      obtain ⟨v, hv, hg⟩ := hgap (n + 1) _ _ (by omega) (tab_getElem?_lt (x := Keltner.out p y) hn) (hm _ hn)
      have hv' : emaF (p : Int) (Ind.cl y) (n + 1) = .fin v := hv
      rw [hc'.cl, emaF_fin] at hv'
      cases hv'
      obtain ⟨s, h1, -, h3⟩ := emaF_track hp hp' hk hk' (ε := 0) (a := fun i => (b i).c) (n + 1) (fun j _ => hc.cl j)
        (fun j hj => hb _ (List.mem_of_getElem? (hm j (by omega)))) (fun j _ => by simp)
      exact alike_of_near (hc.cl (n + 1)) h1 (a := (b (n + 1)).c) (d := 0) (by simp) h3 (by linarith)
  cases i with
  | zero => rfl
  | succ n =>
    have h1 := key (n + 1) hi
    have h2 := key n (by omega)
    simp only [closeSide, Band.rule, Keltner.out, h1.1, h1.2, h2.1, h2.2]
    rfl

/-- **C143 (AwesomeOscillator).** If from the second candle on the exact oscillator is more than `42 2^(k - 51)` away from
zero, the float64 signals are the exact ones. -/
theorem C143_awesome {k : ℤ} (hk : -1021 ≤ k) (hk' : k ≤ 900) {it : Item B64} {itX : Item (XF ℚ)} {bs : List (Bar ℚ)}
    (h : Holds64 it bs) (hX : Holds itX bs) (hb : PricesUpTo k bs) {d : List (Rec (XF ℚ))}
    (hd : Indicator.data Awesome.toIndicator itX = .ok d)
    (hgap : ∀ i r, 1 ≤ i → d[i]? = some r → ∃ v, r.value = .fin v ∧ 42 * 2 ^ (k - 51) < |v|) :
    Strat.signals Awesome it = Strat.signals Awesome itX := by
  obtain ⟨x, y, b, hx, hy, hc, hc', hm⟩ := both_bars h hX
  obtain ⟨-, rfl⟩ := yields_inv (I := Awesome.toIndicator) Awesome.appends.yields hy hd
  rw [(Awesome.signals it _ x hx).1 trivial, (Awesome.signals itX _ y hy).1 trivial]
  refine congrArg _ (tab_ext fun i hi => ?_)
  have hU : (0 : ℚ) < 2 ^ (k - 54) := zpow_pos (by norm_num) _
  have e3 : ∀ m : ℤ, (2 : ℚ) ^ (k + m - 54) = 2 ^ m * 2 ^ (k - 54) := fun m => by
    rw [show k + m - 54 = m + (k - 54) by ring, zpow_add₀ (by norm_num)]
  have e4 : ∀ m : ℤ, (2 : ℚ) ^ (k + m) = 2 ^ m * 2 ^ k := fun m => by rw [add_comm, zpow_add₀ (by norm_num)]
  set a : Nat → ℚ := fun i => ((b i).l + (b i).h) * (1 / 2) with ha
  have med : ∀ j, ∃ r, j < bs.length → (medF x j).val = .fin r ∧ |r| ≤ 2 ^ k ∧ |r - a j| ≤ 2 * 2 ^ (k - 54) := by
    intro j
    by_cases hj : j < bs.length
    · obtain ⟨b1, b2, -⟩ := hb _ (List.mem_of_getElem? (hm j hj))
      obtain ⟨q, r1, c1, w1⟩ := round64_error (q := (b j).l + (b j).h) (k := k + 1) (by omega) (by omega)
        ((abs_add_le _ _).trans (by rw [e4]; norm_num; linarith))
      obtain ⟨q', r2, c2, w2⟩ := round64_error (q := q * (1 / 2)) (k := k) (by omega) (by omega)
        (by rw [abs_mul, abs_of_pos (by norm_num : (0 : ℚ) < 1 / 2)]; rw [e4] at c1; norm_num at c1; linarith)
      refine ⟨q', fun _ => ⟨(B64.val_mul ((B64.val_add (hc.lo j) (hc.hi j)).trans r1) half64).trans r2, c2, ?_⟩⟩
      rw [e3] at w1
      norm_num at w1
      show |q' - ((b j).l + (b j).h) * (1 / 2)| ≤ _
      rw [abs_le] at *
      constructor <;> linarith
    · exact ⟨0, fun h => absurd h hj⟩
  choose v hv using med
  have hmed : medF y = finF a := by
    funext j
    rw [medF, hc'.lo, hc'.hi]; simp [ha, finF, XF.div_fin]
  have key : ∀ n < bs.length, Alike (subF (emaF 5 (medF x) n) (emaF 34 (medF x) n)) (fl 0)
      (subF (emaF 5 (medF y) n) (emaF 34 (medF y) n)) (fl 0) := by
    intro n hn
    have z : (fl 0 : XF ℚ) = .fin 0 := by simp
    have ex : subF (emaF 5 (medF y) n) (emaF 34 (medF y) n) = .fin (emaK 5 a n - emaK 34 a n) := by
      rw [hmed]
      have h5 := emaF_fin 5 a n
      have h34 := emaF_fin 34 a n
      push_cast at h5 h34
      rw [h5, h34, subF_fin]
    cases n with
    | zero =>
      rw [ex, z]
      simp only [emaK, sub_self]
      have := val_subF (hv 0 hn).1 (hv 0 hn).1
      rw [sub_self, round64_rep srep_zero] at this
      exact alike_of_eq this val_zero64
    | succ n =>
      obtain ⟨w, hw, hg⟩ := hgap (n + 1) _ (by omega) (tab_getElem?_lt (x := Awesome.out y) hn)
      have hw' : subF (emaF 5 (medF y) (n + 1)) (emaF 34 (medF y) (n + 1)) = .fin w := hw
      rw [ex] at hw' ⊢
      cases hw'
      rw [z]
      have tr : ∀ q : Nat, 1 ≤ q → q + 1 ≤ 2 ^ 52 → ∃ s, (emaF q (medF x) (n + 1)).val = .fin s ∧ |s| ≤ 2 ^ k ∧
          |s - emaK q a (n + 1)| ≤ 2 * 2 ^ (k - 54) + (q + 1) * 2 ^ (k - 51) := fun q h1 h2 =>
        emaF_track h1 h2 hk hk' (n + 1) (fun j hj => (hv j (by omega)).1) (fun j hj => (hv j (by omega)).2.1)
          (fun j hj => (hv j (by omega)).2.2)
      obtain ⟨s1, h1, b1, g1⟩ := tr 5 (by norm_num) (by norm_num)
      obtain ⟨s2, h2, b2, g2⟩ := tr 34 (by norm_num) (by norm_num)
      obtain ⟨q, r, -, e⟩ := round64_error (q := s1 - s2) (k := k + 1) (by omega) (by omega)
        ((abs_sub _ _).trans (by rw [e4]; norm_num; linarith))
      rw [show k - 51 = k + 3 - 54 by ring, e3] at g1 g2 hg
      rw [e3] at e
      norm_num at e g1 g2 hg
      refine alike_of_near ((val_subF (by exact_mod_cast h1) (by exact_mod_cast h2)).trans r) val_zero64 (d := 336 * 2 ^ (k - 54))
        (e := 0) ?_ (by simp) (by rw [sub_zero]; linarith)
      rw [abs_le] at *
      constructor <;> linarith
  cases i with
  | zero => rfl
  | succ n =>
    have h1 := key (n + 1) hi
    have h2 := key n (by omega)
    simp only [pairSide, zeroRule, Awesome.out]
    exact cross_alike h1 h2

theorem any_range_ext {m : Nat} {f g : Nat → Bool} (h : ∀ j < m, f j = g j) : (List.range m).any f = (List.range m).any g := by
  rw [Bool.eq_iff_iff]
  simp only [List.any_eq_true, List.mem_range]
  exact exists_congr fun j => and_congr_right fun hj => by rw [h j hj]

/-- The compared lines of a record of `EMAVegas` are more than `B` apart. -/
def VegasApart (B : ℚ) (r : Vegas.Data (XF ℚ)) : Prop :=
  ∃ v s1 s2 l1 l2, r.value = .fin v ∧ r.short1 = .fin s1 ∧ r.short2 = .fin s2 ∧ r.long1 = .fin l1 ∧ r.long2 = .fin l2 ∧
    B < |v - s1| ∧ B < |s1 - l1| ∧ B < |s1 - l2| ∧ B < |s2 - l1| ∧ B < |s2 - l2|

/-- **C143 (EMAVegas).** If from the second candle on the lines that are compared are more than `2 (m + 1) 2^(k - 51)` apart
in exact numbers, `m` being the longest period, the float64 signals are the exact ones. -/
theorem C143_vegas {p s1 s2 l1 l2 m : Nat} (h1 : 1 ≤ p ∧ p ≤ m) (h2 : 1 ≤ s1 ∧ s1 ≤ m) (h3 : 1 ≤ s2 ∧ s2 ≤ m)
    (h4 : 1 ≤ l1 ∧ l1 ≤ m) (h5 : 1 ≤ l2 ∧ l2 ≤ m) (hm : m + 1 ≤ 2 ^ 52) {k : ℤ} (hk : -1021 ≤ k) (hk' : k ≤ 900)
    {it : Item B64} {itX : Item (XF ℚ)} {bs : List (Bar ℚ)} (h : Holds64 it bs) (hX : Holds itX bs)
    (hbull : it.candles.map Candle.isBull = itX.candles.map Candle.isBull)
    (hb : ∀ b ∈ bs, |b.c| ≤ 2 ^ k) {d : List (Vegas.Data (XF ℚ))} (hd : (Vegas p s1 s2 l1 l2).data itX = .ok d)
    (hgap : ∀ i r, 1 ≤ i → d[i]? = some r → VegasApart (2 * (m + 1) * 2 ^ (k - 51)) r) :
    (Vegas p s1 s2 l1 l2).signals it = (Vegas p s1 s2 l1 l2).signals itX := by
  obtain ⟨x, y, b, hx, hy, hc, hc', hbi⟩ := both_bars h hX
  obtain ⟨-, rfl⟩ := yields_inv (Vegas.makes p s1 s2 l1 l2).yields hy hd
  rw [(Vegas.signals p s1 s2 l1 l2 it _ x hx).1 trivial, (Vegas.signals p s1 s2 l1 l2 itX _ y hy).1 trivial]
  refine congrArg _ (tab_ext fun i hi => ?_)
  have hbu : bu x i = bu y i := by
    rw [hx, hy, map_tab, map_tab] at hbull
    have := congrArg (fun l => l[i]?) hbull
    rw [tab_getElem?_lt hi, tab_getElem?_lt hi] at this
    exact Option.some.inj this
  have hU : (0 : ℚ) < 2 ^ (k - 51) := zpow_pos (by norm_num) _
  have tr : ∀ q : Nat, 1 ≤ q ∧ q ≤ m → ∀ n < bs.length, ∃ s, (emaF q (Ind.cl x) n).val = .fin s ∧
      |s - emaK q (fun i => (b i).c) n| ≤ (m + 1) * 2 ^ (k - 51) := by
    intro q hq n hn
    obtain ⟨s, e1, -, e3⟩ := emaF_track hq.1 (by omega) hk hk' (ε := 0) (a := fun i => (b i).c) n (fun j _ => hc.cl j)
      (fun j hj => hb _ (List.mem_of_getElem? (hbi j (by omega)))) (fun j _ => by simp)
    refine ⟨s, e1, e3.trans ?_⟩
    have : (q : ℚ) ≤ m := by exact_mod_cast hq.2
    rw [zero_add]
    exact mul_le_mul_of_nonneg_right (by linarith) hU.le
  have al : ∀ (q q' : Nat) (hq : 1 ≤ q ∧ q ≤ m) (hq' : 1 ≤ q' ∧ q' ≤ m) (n : Nat) (hn : n < bs.length)
      (_ : 1 ≤ n → ∃ u v, emaF q (Ind.cl y) n = .fin u ∧ emaF q' (Ind.cl y) n = .fin v ∧ 2 * (m + 1) * 2 ^ (k - 51) < |u - v|),
      Alike (emaF q (Ind.cl x) n) (emaF q' (Ind.cl x) n) (emaF q (Ind.cl y) n) (emaF q' (Ind.cl y) n) := by
    intro q q' hq hq' n hn hg
    obtain ⟨s, e1, g1⟩ := tr q hq n hn
    obtain ⟨s', e1', g1'⟩ := tr q' hq' n hn
    rw [hc'.cl, emaF_fin, emaF_fin] at hg ⊢
    cases n with
    | zero => exact alike_of_eq (hc.cl 0) (hc.cl 0)
    | succ n =>
      obtain ⟨u, v, hu, hv, hgg⟩ := hg (by omega)
      cases hu; cases hv
      exact alike_of_near e1 e1' g1 g1' (by linarith)
  have key : ∀ n < bs.length,
      Alike (emaF p (Ind.cl x) n) (emaF s1 (Ind.cl x) n) (emaF p (Ind.cl y) n) (emaF s1 (Ind.cl y) n) ∧
      Alike (emaF s1 (Ind.cl x) n) (emaF l1 (Ind.cl x) n) (emaF s1 (Ind.cl y) n) (emaF l1 (Ind.cl y) n) ∧
      Alike (emaF s1 (Ind.cl x) n) (emaF l2 (Ind.cl x) n) (emaF s1 (Ind.cl y) n) (emaF l2 (Ind.cl y) n) ∧
      Alike (emaF s2 (Ind.cl x) n) (emaF l1 (Ind.cl x) n) (emaF s2 (Ind.cl y) n) (emaF l1 (Ind.cl y) n) ∧
      Alike (emaF s2 (Ind.cl x) n) (emaF l2 (Ind.cl x) n) (emaF s2 (Ind.cl y) n) (emaF l2 (Ind.cl y) n) := by
    intro n hn
    have ap : 1 ≤ n → VegasApart (2 * (m + 1) * 2 ^ (k - 51)) (Vegas.out p s1 s2 l1 l2 y n) :=
      fun h => hgap n _ h (tab_getElem?_lt hn)
    refine ⟨al _ _ h1 h2 n hn fun h => ?_, al _ _ h2 h4 n hn fun h => ?_, al _ _ h2 h5 n hn fun h => ?_,
      al _ _ h3 h4 n hn fun h => ?_, al _ _ h3 h5 n hn fun h => ?_⟩ <;>
      obtain ⟨a1, a2, a3, a4, a5, b1, b2, b3, b4, b5, c1, c2, c3, c4, c5⟩ := ap h
    · exact ⟨a1, a2, b1, b2, c1⟩
    · exact ⟨a2, a4, b2, b4, c2⟩
    · exact ⟨a2, a5, b2, b5, c3⟩
    · exact ⟨a3, a4, b3, b4, c4⟩
    · exact ⟨a3, a5, b3, b5, c5⟩
  have same : ∀ n < bs.length, (emaF s2 (Ind.cl x) n >. emaF l2 (Ind.cl x) n) = (emaF s2 (Ind.cl y) n >. emaF l2 (Ind.cl y) n) ∧
      (emaF s2 (Ind.cl x) n <. emaF l2 (Ind.cl x) n) = (emaF s2 (Ind.cl y) n <. emaF l2 (Ind.cl y) n) :=
    fun n hn => ⟨(key n hn).2.2.2.2.2, (key n hn).2.2.2.2.1⟩
  simp only [vegasSide, hbu]
  split
  · rfl
  · next hi11 =>
    have hup : vegasUp (Vegas.out p s1 s2 l1 l2 x) i = vegasUp (Vegas.out p s1 s2 l1 l2 y) i := by
      unfold vegasUp
      refine any_range_ext fun j hj' => ?_
      simp only [Vegas.out, (same (i - 10 + j) (by omega)).1, (same (i - 10 + j - 1) (by omega)).2]
    have hdown : vegasDown (Vegas.out p s1 s2 l1 l2 x) i = vegasDown (Vegas.out p s1 s2 l1 l2 y) i := by
      unfold vegasDown
      refine any_range_ext fun j hj' => ?_
      simp only [Vegas.out, (same (i - 10 + j) (by omega)).2, (same (i - 10 + j - 1) (by omega)).1]
    obtain ⟨k1, k2, k3, k4, k5⟩ := key i hi
    rw [hup, hdown]
    simp only [Vegas.rule, Vegas.out, k1.1, k1.2, k2.1, k2.2, k3.1, k3.2, k4.1, k4.2, k5.1, k5.2]
    rfl

theorem trackBars_prices : PricesUpTo 2 trackBars := by unfold PricesUpTo; decide +kernel

/-- The closes of `trackBars`: the float64 Wilder average is within `3 * 2^-49` of the exact one. -/
example : ∃ (r : List B64) (e : List ℚ), Rma (3 : Nat) (trackBars.map fun b => lit b.c : List B64) = .ok r ∧
    Rma (3 : Nat) ((trackBars.map Bar.c).map .fin : List (XF ℚ)) = .ok (e.map .fin) ∧
    r.length = 4 ∧ e.length = 4 ∧
    ∀ (i : Nat) (u : B64) (v : ℚ), r[i]? = some u → e[i]? = some v → ∃ s, u.val = .fin s ∧ |s - v| ≤ (3 : Nat) * 2 ^ ((2 : ℤ) - 51) :=
  C143_rma (by norm_num) (by norm_num) (k := 2) (by norm_num) (by norm_num) (by decide +kernel) (by decide +kernel)

@[inherit_doc trackBars] example := C143_atr (p := 2) (by norm_num) (by norm_num) (k := 2) (by norm_num) (by norm_num)
  (holds_item64 (bs := trackBars) (by decide +kernel)) (holds_barItem _) trackBars_prices
@[inherit_doc trackBars] example := C143_keltner_lines (p := 2) (by norm_num) (by norm_num) (k := 2) (by norm_num) (by norm_num)
  (holds_item64 (bs := trackBars) (by decide +kernel)) (holds_barItem _) trackBars_prices

/-- The closes of `trackBars` stay away from the exact middle line. -/
example : (Keltner 2).signals (item64 trackBars) = (Keltner 2).signals (barItem trackBars) := by
  have hd : ∃ d, (Keltner (2 : Nat)).data (barItem trackBars) = .ok d ∧
      allButFirst (fun (r, b) => match r.middle with
        | .fin v => decide ((((2 : Nat) : ℚ) + 1) * 2 ^ ((2 : ℤ) - 51) < |b.c - v|)
        | _ => false) (d.zip trackBars) = true := by
    refine ⟨_, rfl, ?_⟩
    decide +kernel
  obtain ⟨d, hd, hg⟩ := hd
  refine C143_keltner (p := 2) (by norm_num) (by norm_num) (k := 2) (by norm_num) (by norm_num)
    (holds_item64 (by decide +kernel)) (holds_barItem _) trackBars_small hd fun i r b hi hr hb => ?_
  have := allButFirst_spec hg hi (r := (r, b)) (by rw [List.getElem?_zip_eq_some]; exact ⟨hr, hb⟩)
  revert this
  rcases r with ⟨t, u, v | _ | _ | _, w⟩ <;> simp

@[inherit_doc trackBars] example :
    Strat.signals Awesome (item64 trackBars) = Strat.signals Awesome (barItem trackBars) := by
  have hd : ∃ d, Indicator.data Awesome.toIndicator (barItem trackBars) = .ok d ∧
      allButFirst (fun r => match r.value with
        | .fin v => decide (42 * 2 ^ ((2 : ℤ) - 51) < |v|)
        | _ => false) d = true := by
    refine ⟨_, rfl, ?_⟩
    decide +kernel
  obtain ⟨d, hd, hg⟩ := hd
  refine C143_awesome (k := 2) (by norm_num) (by norm_num)
    (holds_item64 (by decide +kernel)) (holds_barItem _) trackBars_prices hd fun i r hi hr => ?_
  have := allButFirst_spec hg hi hr
  revert this
  rcases r with ⟨t, v | _ | _ | _⟩ <;> simp

/-- Thirteen closes, of which the last eight rise: at most `2^4`. -/
def vegasBars : List (Bar ℚ) := [8, 7, 6, 5, 4, 5, 6, 7, 8, 9, 10, 11, 12].map fun c => ⟨c, c, c, c, 1⟩

/-- The compared lines of `vegasBars` stay apart. -/
example : (Vegas 1 2 3 5 9).signals (item64 vegasBars) = (Vegas 1 2 3 5 9).signals (barItem vegasBars) := by
  have hd : ∃ d, (Vegas (1 : Nat) (2 : Nat) (3 : Nat) (5 : Nat) (9 : Nat)).data (barItem vegasBars) = .ok d ∧
      allButFirst (fun r => match r.value, r.short1, r.short2, r.long1, r.long2 with
        | .fin v, .fin s1, .fin s2, .fin l1, .fin l2 => decide (2 * (((9 : Nat) : ℚ) + 1) * 2 ^ ((4 : ℤ) - 51) < |v - s1| ∧
          2 * (((9 : Nat) : ℚ) + 1) * 2 ^ ((4 : ℤ) - 51) < |s1 - l1| ∧ 2 * (((9 : Nat) : ℚ) + 1) * 2 ^ ((4 : ℤ) - 51) < |s1 - l2| ∧
          2 * (((9 : Nat) : ℚ) + 1) * 2 ^ ((4 : ℤ) - 51) < |s2 - l1| ∧ 2 * (((9 : Nat) : ℚ) + 1) * 2 ^ ((4 : ℤ) - 51) < |s2 - l2|)
        | _, _, _, _, _ => false) d = true := by
    refine ⟨_, rfl, ?_⟩
    decide +kernel
  obtain ⟨d, hd, hg⟩ := hd
  refine C143_vegas (p := 1) (s1 := 2) (s2 := 3) (l1 := 5) (l2 := 9) (m := 9) (by norm_num) (by norm_num) (by norm_num)
    (by norm_num) (by norm_num) (by norm_num) (k := 4) (by norm_num) (by norm_num)
    (holds_item64 (by decide +kernel)) (holds_barItem _) (by decide +kernel) (by decide +kernel) hd fun i r hi hr => ?_
  have := allButFirst_spec hg hi hr
  split at this
  · next v s1 s2 l1 l2 e1 e2 e3 e4 e5 => exact ⟨v, s1, s2, l1, l2, e1, e2, e3, e4, e5, of_decide_eq_true this⟩
  · cases this

end Verif.Props
