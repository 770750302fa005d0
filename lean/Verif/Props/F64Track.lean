import Verif.Props.F64Signs
import Verif.Props.F64Lines

/-!
# How close a float64 exponential average is to the exact one, and when the signals agree (C140)

The error of one step is damped by the factor `(p - 1) / (p + 1)` in the next, so the errors of all steps together stay
below a bound that does not depend on the number of candles.
-/

namespace Verif.Props
open Verif Verif.Klines Verif.Ta Verif.Ind GoFloat

/-- A power of two next above `n`. -/
theorem exists_pow_between {n : Nat} (hn : 1 ≤ n) : ∃ c : Nat, n ≤ 2 ^ c ∧ 2 ^ c ≤ 2 * n := by
  induction n with
  | zero => omega
  | succ n ih =>
    rcases Nat.eq_zero_or_pos n with rfl | h
    · exact ⟨0, by norm_num, by norm_num⟩
    obtain ⟨c, h1, h2⟩ := ih h
    by_cases hc : n + 1 ≤ 2 ^ c
    · exact ⟨c, hc, by omega⟩
    · exact ⟨c + 1, by rw [pow_succ]; omega, by rw [pow_succ]; omega⟩

/-- One run of the recurrence on data that itself carries an error of at most `ε`. -/
theorem emaF_track {p : Nat} (hp : 1 ≤ p) (hp' : p + 1 ≤ 2 ^ 52) {k : ℤ} (hk : -1021 ≤ k) (hk' : k ≤ 900)
    {x : Nat → B64} {v a : Nat → ℚ} {ε : ℚ} (n : Nat) (hx : ∀ j ≤ n, (x j).val = .fin (v j))
    (hb : ∀ j ≤ n, |v j| ≤ 2 ^ k) (he : ∀ j ≤ n, |v j - a j| ≤ ε) :
    ∃ s, (emaF p x n).val = .fin s ∧ |s| ≤ 2 ^ k ∧ |s - emaK p a n| ≤ ε + (p + 1) * 2 ^ (k - 51) := by
  have h2 : (0 : ℚ) < 2 ^ (k - 54) := zpow_pos (by norm_num) _
  have h51 : (2 : ℚ) ^ (k - 51) = 8 * 2 ^ (k - 54) := by
    rw [show k - 51 = k - 54 + 3 by ring, zpow_add₀ (by norm_num)]; norm_num; ring
  have hk54 : (2 : ℚ) ^ k = 2 ^ 54 * 2 ^ (k - 54) := by
    conv_lhs => rw [show k = k - 54 + 54 by ring, zpow_add₀ (by norm_num)]
    norm_num; ring
  obtain ⟨c, hc1, hc2⟩ := exists_pow_between (n := p + 1) (by omega)
  have hc52 : c ≤ 53 := by
    by_contra h
    have : 2 ^ 54 ≤ 2 ^ c := Nat.pow_le_pow_right (by norm_num) (by omega)
    norm_num at this hp' ⊢; omega
  have hc1' : (p + 1 : ℚ) ≤ 2 ^ c := by exact_mod_cast hc1
  have hc2' : (2 : ℚ) ^ c ≤ 2 * (p + 1) := by exact_mod_cast hc2
  have hp1 : (1 : ℚ) ≤ p := by exact_mod_cast hp
  have hcz : ∀ m : ℤ, (2 : ℚ) ^ ((c : ℤ) + m) = 2 ^ c * 2 ^ m := fun m => by
    rw [zpow_add₀ (by norm_num), zpow_natCast]
  have inside : ∀ m ≤ n, ∃ s, (emaF p x m).val = .fin s ∧ |s| ≤ 2 ^ k := by
    intro m hm
    obtain ⟨s, h3, h4, h5⟩ := emaF64 hp (by omega) (by omega) (by omega) (lo := -1) (hi := 1) (e := k)
      (by simpa using (by exact_mod_cast (by omega : p + 1 ≤ 2 ^ 53) : ((p : ℤ) + 1) ≤ 2 ^ 53))
      (by simpa using (by exact_mod_cast (by omega : p + 1 ≤ 2 ^ 53) : ((p : ℤ) + 1) ≤ 2 ^ 53)) (a := v) m
      (fun j hj => hx j (by omega)) (fun j hj => by
        have := abs_le.mp (hb j (by omega)); push_cast; constructor <;> linarith)
    push_cast at h4 h5
    exact ⟨s, h3, abs_le.mpr ⟨by linarith, by linarith⟩⟩
  induction n with
  | zero =>
    refine ⟨v 0, hx 0 le_rfl, hb 0 le_rfl, (he 0 le_rfl).trans ?_⟩
    rw [h51]; nlinarith
  | succ n ih =>
    obtain ⟨s, hs, hsb, hse⟩ := ih (fun j hj => hx j (by omega)) (fun j hj => hb j (by omega))
      (fun j hj => he j (by omega)) (fun m hm => inside m (by omega))
    obtain ⟨s', hs', hsb'⟩ := inside (n + 1) le_rfl
    refine ⟨s', hs', hsb', ?_⟩
    have hxn := hx (n + 1) le_rfl
    have hbn := hb (n + 1) le_rfl
    have hen := he (n + 1) le_rfl
    have hpp : (0 : ℚ) < p + 1 := by linarith
    -- the four roundings
    obtain ⟨q1, r1, b1, e1⟩ := round64_error (q := 2 * v (n + 1)) (k := 1 + k) (by omega) (by omega)
      (by rw [abs_mul, zpow_add₀ (by norm_num)]; norm_num; exact hbn)
    obtain ⟨q2, r2, b2, e2⟩ := round64_error (q := ((p : ℚ) - 1) * s) (k := c + k) (by omega) (by omega)
      (by
        rw [abs_mul, hcz, abs_of_nonneg (by linarith)]
        exact mul_le_mul (by linarith) hsb (abs_nonneg _) (by positivity))
    have hc1k : (2 : ℚ) ^ (1 + k) ≤ 2 ^ ((c : ℤ) + k) := by
      rw [hcz, zpow_add₀ (by norm_num)]
      exact mul_le_mul_of_nonneg_right (by norm_num; linarith) (zpow_pos (by norm_num) _).le
    obtain ⟨q3, r3, b3, e3⟩ := round64_error (q := q1 + q2) (k := c + (k + 1)) (by omega) (by omega)
      (by
        refine (abs_add_le _ _).trans ?_
        rw [← add_assoc, zpow_add_one₀ (by norm_num)]; linarith)
    obtain ⟨q4, r4, b4, e4⟩ := round64_error (q := q3 / (p + 1)) (k := k + 2) (by omega) (by omega)
      (by
        rw [abs_div, abs_of_pos hpp, div_le_iff₀ hpp]
        refine b3.trans ?_
        rw [hcz, zpow_add₀ (by norm_num : (2 : ℚ) ≠ 0) k 1, zpow_add₀ (by norm_num : (2 : ℚ) ≠ 0) k 2]
        have := mul_le_mul_of_nonneg_right hc2' (zpow_pos (by norm_num : (0 : ℚ) < 2) k).le
        norm_num; linarith)
    have h1 := (B64.val_mul (B64.val_fl 2 (by norm_num)) hxn).trans (by push_cast; exact r1)
    have h3 := (B64.val_mul (B64.val_fl ((p : Int) - 1) (by rw [abs_of_nonneg (by omega)]; omega)) hs).trans
      (by push_cast; exact r2)
    have h4 := (B64.val_add h1 h3).trans r3
    have h5 := (B64.val_div h4 (B64.val_fl ((p : Int) + 1) (by rw [abs_of_nonneg (by omega)]; omega))
      (by push_cast; exact hpp.ne')).trans (by push_cast; exact r4)
    have : s' = q4 := by
      rw [emaF] at hs'
      rw [hs'] at h5
      exact XF.fin.inj h5
    subst this
    -- the errors as multiples of `2 ^ (k - 54)`
    set U : ℚ := 2 ^ (k - 54) with hU
    have w1 : |q1 - 2 * v (n + 1)| ≤ 2 * U := by
      refine e1.trans (le_of_eq ?_)
      rw [show 1 + k - 54 = 1 + (k - 54) by ring, zpow_add₀ (by norm_num), zpow_one]
    have w2 : |q2 - ((p : ℚ) - 1) * s| ≤ 2 * (p + 1) * U := by
      refine e2.trans ?_
      rw [show (c : ℤ) + k - 54 = c + (k - 54) by ring, hcz]
      exact mul_le_mul_of_nonneg_right hc2' h2.le
    have w3 : |q3 - (q1 + q2)| ≤ 4 * (p + 1) * U := by
      refine e3.trans ?_
      rw [show (c : ℤ) + (k + 1) - 54 = (c + (k - 54)) + 1 by ring, zpow_add_one₀ (by norm_num), hcz]
      have := mul_le_mul_of_nonneg_right hc2' h2.le
      linarith
    have w4 : |s' - q3 / (p + 1)| ≤ 4 * U := by
      refine e4.trans (le_of_eq ?_)
      rw [show k + 2 - 54 = k - 54 + 2 by ring, zpow_add₀ (by norm_num)]; norm_num; ring
    rw [emaK, h51]
    rw [h51] at hse
    have w4' : |(p + 1) * s' - q3| ≤ 4 * (p + 1) * U := by
      have : (p + 1 : ℚ) * s' - q3 = (p + 1) * (s' - q3 / (p + 1)) := by
        rw [mul_sub, mul_div_cancel₀ _ hpp.ne']
      rw [this, abs_mul, abs_of_pos hpp]
      have := mul_le_mul_of_nonneg_left w4 hpp.le
      linarith
    have w5 : |((p : ℚ) - 1) * s - (p - 1) * emaK p a n| ≤ (p - 1) * (ε + (p + 1) * (8 * U)) := by
      rw [← mul_sub, abs_mul, abs_of_nonneg (by linarith)]
      exact mul_le_mul_of_nonneg_left hse (by linarith)
    have w6 : |(p + 1) * s' - (2 * a (n + 1) + ((p : ℚ) - 1) * emaK p a n)| ≤ (p + 1) * (ε + (p + 1) * (8 * U)) := by
      rw [abs_le] at *
      have g : (2 : ℚ) * U + 2 * (p + 1) * U + 4 * (p + 1) * U + 4 * (p + 1) * U + 2 * ε + (p - 1) * (ε + (p + 1) * (8 * U)) ≤
          (p + 1) * (ε + (p + 1) * (8 * U)) := by nlinarith
      constructor <;> linarith
    have : s' - (2 * a (n + 1) + ((p : ℚ) - 1) * emaK p a n) / (p + 1) =
        ((p + 1) * s' - (2 * a (n + 1) + ((p : ℚ) - 1) * emaK p a n)) / (p + 1) := by
      rw [sub_div, mul_div_cancel_left₀ _ hpp.ne']
    rw [this, abs_div, abs_of_pos hpp, div_le_iff₀ hpp]
    linarith

/-- **C140 (Ema).** The float64 exponential average of numbers of size at most `2^k` is within `(p + 1) 2^(k - 51)` of the
exact one, at every position of a list of any length. -/
theorem C140_ema {p : Nat} (hp : 1 ≤ p) (hp' : p + 1 ≤ 2 ^ 52) {k : ℤ} (hk : -1021 ≤ k) (hk' : k ≤ 900)
    {xs : List B64} {as : List ℚ} (hv : Vals xs as) (hb : ∀ v ∈ as, |v| ≤ 2 ^ k) :
    ∃ (r : List B64) (e : List ℚ), Ema p xs = .ok r ∧ Ema p (as.map .fin : List (XF ℚ)) = .ok (e.map .fin) ∧
      r.length = as.length ∧ e.length = as.length ∧
      ∀ (i : Nat) (u : B64) (v : ℚ), r[i]? = some u → e[i]? = some v → ∃ s, u.val = .fin s ∧ |s - v| ≤ (p + 1) * 2 ^ (k - 51) := by
  obtain ⟨x, a, hx, ha, hxa⟩ := hv.tabs
  refine ⟨tab as.length (emaF p x), tab as.length (emaK p a), by rw [hx]; exact Ema_tab _ _ _, ?_, by simp, by simp, ?_⟩
  · rw [map_tab]
    conv_lhs => rw [ha, map_tab]
    refine (Ema_tab _ _ _).trans (congrArg _ (tab_ext fun i _ => ?_))
    exact emaF_fin p a i
  · intro i u v hu hvv
    have hi : i < as.length := by simpa using (List.getElem?_eq_some_iff.mp hu).1
    rw [tab_getElem?_lt hi] at hu hvv
    cases hu; cases hvv
    obtain ⟨s, h1, -, h3⟩ := emaF_track hp hp' hk hk' (ε := 0) (a := a) i (fun j _ => hxa j)
      (fun j hj => hb _ (by rw [ha]; exact mem_tab.mpr ⟨j, by omega, rfl⟩)) (fun j _ => by simp)
    exact ⟨s, h1, by linarith⟩

/-- Numbers further apart than their errors compare alike. -/
theorem lt_of_near {u v a b d e : ℚ} (hu : |u - a| ≤ d) (hv : |v - b| ≤ e) (h : d + e < |a - b|) : (u < v ↔ a < b) := by
  rw [abs_le] at hu hv
  rcases lt_abs.mp h with h | h
  · constructor <;> intro _ <;> linarith
  · constructor <;> intro _ <;> linarith

/-- The float64 and the exact lines of one candle compare alike. -/
def Alike (x y : B64) (a b : XF ℚ) : Prop := (x <. y) = (a <. b) ∧ (y <. x) = (b <. a)

theorem alike_of_near {x y : B64} {u v a b d e : ℚ} (hx : x.val = .fin u) (hy : y.val = .fin v)
    (hu : |u - a| ≤ d) (hv : |v - b| ≤ e) (h : d + e < |a - b|) : Alike x y (.fin a) (.fin b) := by
  constructor
  · rw [B64.lt_val hx hy, XF.lt_fin]; exact decide_eq_decide.mpr (lt_of_near hu hv h)
  · rw [B64.lt_val hy hx, XF.lt_fin]
    exact decide_eq_decide.mpr (lt_of_near hv hu (by rw [abs_sub_comm, add_comm]; exact h))

theorem alike_of_eq {x y : B64} {u a : ℚ} (hx : x.val = .fin u) (hy : y.val = .fin u) :
    Alike x y (.fin a) (.fin a) := by
  constructor
  · rw [B64.lt_val hx hy, XF.lt_fin]; simp
  · rw [B64.lt_val hy hx, XF.lt_fin]; simp

theorem xo_alike {s : XO.St} {v : XO.Data B64} {w : XO.Data (XF ℚ)} (h : Alike v.fast v.slow w.fast w.slow) :
    XO.step s v = XO.step s w := by
  simp only [XO.step, h.1, h.2]

theorem cross_alike {x y px py : B64} {a b pa pb : XF ℚ} (h : Alike x y a b) (hp : Alike px py pa pb) :
    crossRule x y px py = crossRule a b pa pb := by
  simp only [crossRule, h.1, h.2, hp.1, hp.2]

/-- The closes of a float64 and of an exact series with the same bars. -/
theorem both_cols {it : Item B64} {itX : Item (XF ℚ)} {bs : List (Bar ℚ)} (h : Holds64 it bs) (hX : Holds itX bs) :
    ∃ x y a, it.candles = tab bs.length x ∧ itX.candles = tab bs.length y ∧ (∀ i, (cl x i).val = .fin (a i)) ∧
      cl y = finF a ∧ ∀ i < bs.length, ∃ b ∈ bs, a i = b.c := by
  obtain ⟨x, b, hx, hb, hc, h0⟩ := h.cols
  obtain ⟨y, b', hy, hb', hc', h0'⟩ := hX.cols₀
  have e : b' = b := by
    funext i
    rcases lt_or_ge i bs.length with hi | hi
    · have h1 := tab_getElem?_lt (x := b) hi
      have h2 := tab_getElem?_lt (x := b') hi
      rw [← hb] at h1; rw [← hb'] at h2
      exact Option.some.inj (h2.symm.trans h1)
    · rw [h0 i hi, h0' i hi]
  subst e
  refine ⟨x, y, fun i => (b' i).c, hx, hy, hc.cl, hc'.cl, fun i hi => ⟨b' i, ?_, rfl⟩⟩
  rw [hb]; exact mem_tab.mpr ⟨i, hi, rfl⟩

/-- **C140 (TraderXO).** If from the second candle on the exact fast and slow averages are more than
`(fast + slow + 2) 2^(k - 51)` apart, prices being at most `2^k`, the float64 signals are the exact ones. -/
theorem C140_trader_xo {f s : Nat} (hf : 1 ≤ f) (hf' : f + 1 ≤ 2 ^ 52) (hs : 1 ≤ s) (hs' : s + 1 ≤ 2 ^ 52)
    {k : ℤ} (hk : -1021 ≤ k) (hk' : k ≤ 900) {it : Item B64} {itX : Item (XF ℚ)} {bs : List (Bar ℚ)}
    (h : Holds64 it bs) (hX : Holds itX bs) (hb : ∀ b ∈ bs, |b.c| ≤ 2 ^ k) {d : List (XO.Data (XF ℚ))}
    (hd : (XO f s).data itX = .ok d)
    (hgap : ∀ i r, 1 ≤ i → d[i]? = some r → ∃ u v, r.fast = .fin u ∧ r.slow = .fin v ∧
      ((f : ℚ) + s + 2) * 2 ^ (k - 51) < |u - v|) :
    (XO f s).signals it = (XO f s).signals itX := by
  obtain ⟨x, y, a, hx, hy, hc, hc', hm⟩ := both_cols h hX
  obtain ⟨-, rfl⟩ := yields_inv (XO.makes f s).yields hy hd
  rw [(XO.signals f s it _ x hx).1 trivial, (XO.signals f s itX _ y hy).1 trivial]
  refine congrArg _ (tab_ext fun i hi => ?_)
  have bd : ∀ i < bs.length, |a i| ≤ 2 ^ k := fun i hi => by
    obtain ⟨b, hbm, e⟩ := hm i hi; rw [e]; exact hb b hbm
  suffices hh : ∀ i, i < bs.length → xoF (XO.out f s x) i = xoF (XO.out f s y) i from
    congrArg Prod.snd (hh i hi)
  intro i
  induction i with
  | zero => intro _; rfl
  | succ n ih =>
    intro hn
    rw [xoF, xoF, ih (by omega)]
    apply xo_alike
    obtain ⟨u, v, hu, hv, hg⟩ := hgap (n + 1) _ (by omega) (tab_getElem?_lt (x := XO.out f s y) hn)
    rw [hu, hv]
    have hu' : emaF (f : Int) (cl y) (n + 1) = .fin u := hu
    have hv' : emaF (s : Int) (cl y) (n + 1) = .fin v := hv
    rw [hc', emaF_fin] at hu' hv'
    cases hu'; cases hv'
    obtain ⟨s1, h1, -, g1⟩ := emaF_track hf hf' hk hk' (ε := 0) (a := a) (n + 1) (fun j _ => hc j)
      (fun j hj => bd j (by omega)) (fun j _ => by simp)
    obtain ⟨s2, h2, -, g2⟩ := emaF_track hs hs' hk hk' (ε := 0) (a := a) (n + 1) (fun j _ => hc j)
      (fun j hj => bd j (by omega)) (fun j _ => by simp)
    exact alike_of_near h1 h2 g1 g2 (by linarith)

/-- The difference of two float64 averages of the same closes. -/
theorem difF_track {f s : Nat} (hf : 1 ≤ f) (hf' : f + 1 ≤ 2 ^ 52) (hs : 1 ≤ s) (hs' : s + 1 ≤ 2 ^ 52)
    {k : ℤ} (hk : -1021 ≤ k) (hk' : k ≤ 900) {x : Nat → Candle B64} {a : Nat → ℚ} (hc : ∀ i, (cl x i).val = .fin (a i))
    (n : Nat) (bd : ∀ j ≤ n, |a j| ≤ 2 ^ k) :
    ∃ q, (difF f s x n).val = .fin q ∧ |q| ≤ 2 ^ (k + 1) ∧
      |q - (emaK f a n - emaK s a n)| ≤ ((f : ℚ) + s + 3) * 2 ^ (k - 51) := by
  obtain ⟨s1, h1, b1, g1⟩ := emaF_track hf hf' hk hk' (ε := 0) (a := a) n (fun j _ => hc j) bd (fun j _ => by simp)
  obtain ⟨s2, h2, b2, g2⟩ := emaF_track hs hs' hk hk' (ε := 0) (a := a) n (fun j _ => hc j) bd (fun j _ => by simp)
  obtain ⟨q, r, bq, e⟩ := round64_error (q := s1 - s2) (k := k + 1) (by omega) (by omega)
    (by
      refine (abs_sub _ _).trans ?_
      rw [zpow_add_one₀ (by norm_num)]; linarith)
  refine ⟨q, (val_subF h1 h2).trans r, bq, ?_⟩
  have h51 : (2 : ℚ) ^ (k + 1 - 54) ≤ 2 ^ (k - 51) := zpow_le_zpow_right₀ (by norm_num) (by omega)
  rw [abs_le] at *
  constructor <;> linarith

theorem subF_fin (a b : ℚ) : (subF (.fin a) (.fin b) : XF ℚ) = .fin (a - b) := by
  simp [subF, sub_eq_add_neg]

theorem difF_fin {f s : Nat} {y : Nat → Candle (XF ℚ)} {a : Nat → ℚ} (hc : cl y = finF a) (i : Nat) :
    difF f s y i = .fin (emaK f a i - emaK s a i) := by
  rw [difF, hc, emaF_fin, emaF_fin, subF_fin]

theorem difF_zero {f s : Int} {x : Nat → Candle B64} {a : ℚ} (hc : (cl x 0).val = .fin a) : (difF f s x 0).val = .fin 0 := by
  have := val_subF hc hc
  rw [sub_self, round64_rep srep_zero] at this
  exact this

/-- **C140 (AbsolutePriceOscillator).** If from the second candle on the exact oscillator is more than
`(fast + slow + 3) 2^(k - 51)` away from zero, the float64 signals are the exact ones. -/
theorem C140_apo {f s : Nat} (hf : 1 ≤ f) (hf' : f + 1 ≤ 2 ^ 52) (hs : 1 ≤ s) (hs' : s + 1 ≤ 2 ^ 52)
    {k : ℤ} (hk : -1021 ≤ k) (hk' : k ≤ 900) {it : Item B64} {itX : Item (XF ℚ)} {bs : List (Bar ℚ)}
    (h : Holds64 it bs) (hX : Holds itX bs) (hb : ∀ b ∈ bs, |b.c| ≤ 2 ^ k) {d : List (Rec (XF ℚ))}
    (hd : (APO f s).data itX = .ok d)
    (hgap : ∀ i r, 1 ≤ i → d[i]? = some r → ∃ v, r.value = .fin v ∧ ((f : ℚ) + s + 3) * 2 ^ (k - 51) < |v|) :
    (APO f s).signals it = (APO f s).signals itX := by
  obtain ⟨x, y, a, hx, hy, hc, hc', hm⟩ := both_cols h hX
  obtain ⟨-, rfl⟩ := yields_inv (APO.makes f s).yields hy hd
  rw [(APO.signals f s it _ x hx).1 trivial, (APO.signals f s itX _ y hy).1 trivial]
  refine congrArg _ (tab_ext fun i hi => ?_)
  have bd : ∀ i < bs.length, |a i| ≤ 2 ^ k := fun i hi => by
    obtain ⟨b, hbm, e⟩ := hm i hi; rw [e]; exact hb b hbm
  have key : ∀ n < bs.length, Alike (difF f s x n) (fl 0) (difF f s y n) (fl 0) := by
    intro n hn
    have z : (fl 0 : XF ℚ) = .fin 0 := by simp
    cases n with
    | zero =>
      rw [difF_fin hc', z]
      simp only [emaK, sub_self]
      exact alike_of_eq (difF_zero (hc 0)) val_zero64
    | succ n =>
      obtain ⟨v, hv, hg⟩ := hgap (n + 1) _ (by omega) (tab_getElem?_lt (x := APO.out f s y) hn)
      have hv' : difF f s y (n + 1) = .fin v := hv
      rw [hv', z]
      rw [difF_fin hc'] at hv'
      cases hv'
      obtain ⟨q, h1, -, g1⟩ := difF_track hf hf' hs hs' hk hk' hc (n + 1) (fun j hj => bd j (by omega))
      exact alike_of_near h1 val_zero64 g1 (by rw [sub_zero, abs_zero]) (by rw [sub_zero, add_zero]; exact hg)
  cases i with
  | zero => rfl
  | succ n =>
    have h1 := key (n + 1) hi
    have h2 := key n (by omega)
    simp only [difF] at h1 h2
    simp only [pairSide, zeroRule, APO.out]
    exact cross_alike h1 h2

/-- **C140 (Macd lines).** The difference and signal lines are within `(short + long + 2 signal + 5) 2^(k - 51)` of the
exact ones. -/
theorem C140_macd_lines {s g l : Nat} (hs : 1 ≤ s) (hs' : s + 1 ≤ 2 ^ 52) (hg : 1 ≤ g) (hg' : g + 1 ≤ 2 ^ 52)
    (hl : 1 ≤ l) (hl' : l + 1 ≤ 2 ^ 52) {k : ℤ} (hk : -1021 ≤ k) (hk' : k ≤ 899) {it : Item B64} {itX : Item (XF ℚ)}
    {bs : List (Bar ℚ)} (h : Holds64 it bs) (hX : Holds itX bs) (hb : ∀ b ∈ bs, |b.c| ≤ 2 ^ k) :
    ∃ d e, (MACD s g l).data it = .ok d ∧ (MACD s g l).data itX = .ok e ∧ d.length = bs.length ∧ e.length = bs.length ∧
      ∀ (i : Nat) r t, d[i]? = some r → e[i]? = some t → ∃ u v a b, r.dif.val = .fin u ∧ r.dea.val = .fin v ∧
        t.dif = .fin a ∧ t.dea = .fin b ∧ |u - a| ≤ ((s : ℚ) + l + 2 * g + 5) * 2 ^ (k - 51) ∧
        |v - b| ≤ ((s : ℚ) + l + 2 * g + 5) * 2 ^ (k - 51) ∧ (i = 0 → u = 0 ∧ v = 0 ∧ a = 0 ∧ b = 0) := by
  obtain ⟨x, y, a, hx, hy, hc, hc', hm⟩ := both_cols h hX
  refine ⟨_, _, ((MACD.makes s g l).yields it _ x hx).1 trivial, ((MACD.makes s g l).yields itX _ y hy).1 trivial,
    by simp, by simp, ?_⟩
  intro i r t hr ht
  have hi : i < bs.length := by simpa using (List.getElem?_eq_some_iff.mp hr).1
  rw [tab_getElem?_lt hi] at hr ht
  cases hr; cases ht
  have bd : ∀ i < bs.length, |a i| ≤ 2 ^ k := fun i hi => by
    obtain ⟨b, hbm, e⟩ := hm i hi; rw [e]; exact hb b hbm
  have key : ∀ n, ∃ q, n < bs.length → (difF s l x n).val = .fin q ∧ |q| ≤ 2 ^ (k + 1) ∧
      |q - (emaK s a n - emaK l a n)| ≤ ((s : ℚ) + l + 3) * 2 ^ (k - 51) := by
    intro n
    by_cases hn : n < bs.length
    · obtain ⟨q, hq⟩ := difF_track hs hs' hl hl' hk (by omega) hc n (fun j hj => bd j (by omega))
      exact ⟨q, fun _ => hq⟩
    · exact ⟨0, fun h => absurd h hn⟩
  choose q hq using key
  obtain ⟨v, hv, -, hve⟩ := emaF_track hg hg' (k := k + 1) (by omega) (by omega) (a := fun n => emaK s a n - emaK l a n)
    (v := q) (ε := ((s : ℚ) + l + 3) * 2 ^ (k - 51)) i (fun j hj => (hq j (by omega)).1)
    (fun j hj => (hq j (by omega)).2.1) (fun j hj => (hq j (by omega)).2.2)
  have hdif : difF s l y = finF fun n => emaK s a n - emaK l a n := funext fun n => difF_fin hc' n
  have hpos : (0 : ℚ) < 2 ^ (k - 51) := zpow_pos (by norm_num) _
  have hg0 : (0 : ℚ) ≤ g := Nat.cast_nonneg g
  have h50 : (2 : ℚ) ^ (k + 1 - 51) = 2 * 2 ^ (k - 51) := by
    rw [show k + 1 - 51 = k - 51 + 1 by ring, zpow_add_one₀ (by norm_num)]; ring
  refine ⟨q i, v, _, emaK g (fun n => emaK s a n - emaK l a n) i, (hq i hi).1, hv, difF_fin hc' i, ?_,
    (hq i hi).2.2.trans (mul_le_mul_of_nonneg_right (by linarith) hpos.le), ?_, ?_⟩
  · show emaF g (difF s l y) i = _
    rw [hdif, emaF_fin]
  · rw [h50] at hve; linarith
  · rintro rfl
    have h0 : q 0 = 0 := XF.fin.inj ((hq 0 hi).1.symm.trans (difF_zero (hc 0)))
    have hv0 : v = 0 := XF.fin.inj (hv.symm.trans (difF_zero (hc 0)))
    exact ⟨h0, hv0, by simp [emaK], by simp [emaK]⟩

/-- **C140 (Macd).** If from the second candle on the exact difference and signal lines are more than
`B = (short + long + 2 signal + 5) 2^(k - 51)` away from zero and more than `2 B` apart, the float64 signals are the
exact ones. -/
theorem C140_macd {s g l : Nat} (hs : 1 ≤ s) (hs' : s + 1 ≤ 2 ^ 52) (hg : 1 ≤ g) (hg' : g + 1 ≤ 2 ^ 52)
    (hl : 1 ≤ l) (hl' : l + 1 ≤ 2 ^ 52) {k : ℤ} (hk : -1021 ≤ k) (hk' : k ≤ 899) {it : Item B64} {itX : Item (XF ℚ)}
    {bs : List (Bar ℚ)} (h : Holds64 it bs) (hX : Holds itX bs) (hb : ∀ b ∈ bs, |b.c| ≤ 2 ^ k)
    {d : List (MACD.Data (XF ℚ))} (hd : (MACD s g l).data itX = .ok d)
    (hgap : ∀ i r, 1 ≤ i → d[i]? = some r → ∃ a b, r.dif = .fin a ∧ r.dea = .fin b ∧
      ((s : ℚ) + l + 2 * g + 5) * 2 ^ (k - 51) < |a| ∧ ((s : ℚ) + l + 2 * g + 5) * 2 ^ (k - 51) < |b| ∧
      2 * (((s : ℚ) + l + 2 * g + 5) * 2 ^ (k - 51)) < |a - b|) :
    (MACD s g l).signals it = (MACD s g l).signals itX := by
  obtain ⟨e, d', he, hd', -, -, hnear⟩ := C140_macd_lines hs hs' hg hg' hl hl' hk hk' h hX hb
  obtain ⟨x, y, a, hx, hy, -, -, -⟩ := both_cols h hX
  rw [hd] at hd'; cases hd'
  obtain ⟨-, rfl⟩ := yields_inv (MACD.makes s g l).yields hx he
  obtain ⟨-, rfl⟩ := yields_inv (MACD.makes s g l).yields hy hd
  rw [(MACD.signals s g l it _ x hx).1 trivial, (MACD.signals s g l itX _ y hy).1 trivial]
  refine congrArg _ (tab_ext fun i hi => ?_)
  have key : ∀ n < bs.length, Alike (MACD.out s g l x n).dif (fl 0) (MACD.out s g l y n).dif (fl 0) ∧
      Alike (MACD.out s g l x n).dea (fl 0) (MACD.out s g l y n).dea (fl 0) ∧
      Alike (MACD.out s g l x n).dif (MACD.out s g l x n).dea (MACD.out s g l y n).dif (MACD.out s g l y n).dea := by
    intro n hn
    have z : (fl 0 : XF ℚ) = .fin 0 := by simp
    obtain ⟨u, v, a, b, h1, h2, h3, h4, g1, g2, h0⟩ := hnear n _ _ (tab_getElem?_lt hn) (tab_getElem?_lt hn)
    cases n with
    | zero =>
      obtain ⟨rfl, rfl, rfl, rfl⟩ := h0 rfl
      rw [h3, h4, z]
      exact ⟨alike_of_eq h1 val_zero64, alike_of_eq h2 val_zero64, alike_of_eq h1 h2⟩
    | succ n =>
      obtain ⟨a', b', k1, k2, k3, k4, k5⟩ := hgap (n + 1) _ (by omega) (tab_getElem?_lt (x := MACD.out s g l y) hn)
      rw [h3] at k1; rw [h4] at k2
      cases k1; cases k2
      rw [h3, h4, z]
      exact ⟨alike_of_near h1 val_zero64 g1 (by rw [sub_zero, abs_zero]) (by rw [sub_zero, add_zero]; exact k3),
        alike_of_near h2 val_zero64 g2 (by rw [sub_zero, abs_zero]) (by rw [sub_zero, add_zero]; exact k4),
        alike_of_near h1 h2 g1 g2 (by linarith)⟩
  cases i with
  | zero => rfl
  | succ n =>
    obtain ⟨k1, k2, k3⟩ := key (n + 1) hi
    obtain ⟨-, -, k4⟩ := key n (by omega)
    simp only [pairSide, MACD.rule, k1.1, k1.2, k2.1, k2.2, k3.1, k3.2, k4.1, k4.2]

/-- Closes 1, 2, 4, 1 (at most `2^2`). -/
def trackBars : List (Bar ℚ) := [⟨1, 1, 1, 1, 1⟩, ⟨2, 2, 2, 2, 1⟩, ⟨4, 4, 4, 4, 1⟩, ⟨1, 1, 1, 1, 1⟩]

theorem trackBars_small : ∀ b ∈ trackBars, |b.c| ≤ 2 ^ (2 : ℤ) := by decide +kernel

/-- A gap that holds at every position but the first. -/
def allButFirst {α : Type} (ok : α → Bool) (d : List α) : Bool := d.tail.all ok

theorem allButFirst_spec {α : Type} {ok : α → Bool} {d : List α} (h : allButFirst ok d = true) {i : Nat} {r : α}
    (hi : 1 ≤ i) (hr : d[i]? = some r) : ok r = true := by
  obtain ⟨j, rfl⟩ : ∃ j, i = j + 1 := ⟨i - 1, by omega⟩
  rw [← List.getElem?_tail] at hr
  exact List.all_eq_true.mp h r (List.mem_of_getElem? hr)

/-- The exact lines of `trackBars` are far apart, so the float64 signals are the exact ones. -/
example : (XO 2 3).signals (item64 trackBars) = (XO 2 3).signals (barItem trackBars) := by
  have hd : ∃ d, (XO (2 : Nat) (3 : Nat)).data (barItem trackBars) = .ok d ∧
      allButFirst (fun r => match r.fast, r.slow with
        | .fin u, .fin v => decide ((((2 : Nat) : ℚ) + (3 : Nat) + 2) * 2 ^ ((2 : ℤ) - 51) < |u - v|)
        | _, _ => false) d = true := by
    refine ⟨_, rfl, ?_⟩
    decide +kernel
  obtain ⟨d, hd, hg⟩ := hd
  refine C140_trader_xo (f := 2) (s := 3) (by norm_num) (by norm_num) (by norm_num) (by norm_num) (k := 2) (by norm_num) (by norm_num)
    (holds_item64 (by decide +kernel)) (holds_barItem _) trackBars_small hd fun i r hi hr => ?_
  have := allButFirst_spec hg hi hr
  revert this
  rcases r with ⟨t, u | _ | _ | _, v | _ | _ | _⟩ <;> simp

@[inherit_doc trackBars] example : (APO 2 3).signals (item64 trackBars) = (APO 2 3).signals (barItem trackBars) := by
  have hd : ∃ d, (APO (2 : Nat) (3 : Nat)).data (barItem trackBars) = .ok d ∧
      allButFirst (fun r => match r.value with
        | .fin v => decide ((((2 : Nat) : ℚ) + (3 : Nat) + 3) * 2 ^ ((2 : ℤ) - 51) < |v|)
        | _ => false) d = true := by
    refine ⟨_, rfl, ?_⟩
    decide +kernel
  obtain ⟨d, hd, hg⟩ := hd
  refine C140_apo (f := 2) (s := 3) (by norm_num) (by norm_num) (by norm_num) (by norm_num) (k := 2) (by norm_num) (by norm_num)
    (holds_item64 (by decide +kernel)) (holds_barItem _) trackBars_small hd fun i r hi hr => ?_
  have := allButFirst_spec hg hi hr
  revert this
  rcases r with ⟨t, v | _ | _ | _⟩ <;> simp

@[inherit_doc trackBars] example :
    (MACD 2 2 3).signals (item64 trackBars) = (MACD 2 2 3).signals (barItem trackBars) := by
  have hd : ∃ d, (MACD (2 : Nat) (2 : Nat) (3 : Nat)).data (barItem trackBars) = .ok d ∧
      allButFirst (fun r => match r.dif, r.dea with
        | .fin u, .fin v => decide ((((2 : Nat) : ℚ) + (3 : Nat) + 2 * (2 : Nat) + 5) * 2 ^ ((2 : ℤ) - 51) < |u| ∧
          (((2 : Nat) : ℚ) + (3 : Nat) + 2 * (2 : Nat) + 5) * 2 ^ ((2 : ℤ) - 51) < |v| ∧
          2 * ((((2 : Nat) : ℚ) + (3 : Nat) + 2 * (2 : Nat) + 5) * 2 ^ ((2 : ℤ) - 51)) < |u - v|)
        | _, _ => false) d = true := by
    refine ⟨_, rfl, ?_⟩
    decide +kernel
  obtain ⟨d, hd, hg⟩ := hd
  refine C140_macd (s := 2) (g := 2) (l := 3) (by norm_num) (by norm_num) (by norm_num) (by norm_num) (by norm_num) (by norm_num)
    (k := 2) (by norm_num) (by norm_num)
    (holds_item64 (by decide +kernel)) (holds_barItem _) trackBars_small hd fun i r hi hr => ?_
  have := allButFirst_spec hg hi hr
  revert this
  rcases r with ⟨t, u | _ | _ | _, v | _ | _ | _, _⟩ <;> simp

/-- The float64 average of the closes of `trackBars` is within `4 * 2^-49` of the exact one. -/
example : ∃ (r : List B64) (e : List ℚ), Ema (3 : Nat) (trackBars.map fun b => lit b.c : List B64) = .ok r ∧
    Ema (3 : Nat) ((trackBars.map Bar.c).map .fin : List (XF ℚ)) = .ok (e.map .fin) ∧
    r.length = 4 ∧ e.length = 4 ∧
    ∀ (i : Nat) (u : B64) (v : ℚ), r[i]? = some u → e[i]? = some v → ∃ s, u.val = .fin s ∧ |s - v| ≤ ((3 : Nat) + 1) * 2 ^ ((2 : ℤ) - 51) :=
  C140_ema (by norm_num) (by norm_num) (k := 2) (by norm_num) (by norm_num) (by decide +kernel) (by decide +kernel)

end Verif.Props
