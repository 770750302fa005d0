import Verif.Props.F64Base
import Verif.Props.Crossing

/-!
# Signs of differences in float64 (C120)

Several oscillators are a difference of two averages, read by its sign. In float64 a difference of two different numbers
never rounds to 0 (underflow is gradual) and an overflow keeps the sign, so the sign is exact for all inputs, NaN and
infinities included. A difference divided by the slow average keeps it within wide bounds.
-/

namespace Verif.Props
open Verif Verif.Klines Verif.Ta Verif.Ind GoFloat

/-! ## Signs of rounded numbers -/

theorem xlt_fin (a b : ℚ) : XF.lt (.fin a) (.fin b) = decide (a < b) := rfl

theorem lt_round64 {q lo : ℚ} (hlo : SRep lo) (h0 : 0 < lo) (h : lo ≤ q) : XF.lt (.fin 0) (round64 q) = true := by
  rw [round64]
  have h3 := roundS_mono h
  rw [roundS_rep hlo] at h3
  split_ifs with h1 h2
  · rw [xlt_fin, decide_eq_true_iff]; linarith
  · linarith
  · rfl

theorem round64_lt {q lo : ℚ} (hlo : SRep lo) (h0 : 0 < lo) (h : q ≤ -lo) : XF.lt (round64 q) (.fin 0) = true := by
  rw [round64]
  have h3 := roundS_mono h
  rw [roundS_rep hlo.neg] at h3
  split_ifs with h1 h2
  · rw [xlt_fin, decide_eq_true_iff]; linarith
  · rfl
  · linarith

theorem lt_asymm_pos {v : XF ℚ} (h : XF.lt (.fin 0) v = true) : XF.lt v (.fin 0) = false := by
  cases v <;> first | rfl | skip
  · rw [xlt_fin, decide_eq_true_iff] at h; rw [xlt_fin, decide_eq_false_iff_not]; exact not_lt.mpr h.le
  · cases h

theorem lt_asymm_neg {v : XF ℚ} (h : XF.lt v (.fin 0) = true) : XF.lt (.fin 0) v = false := by
  cases v <;> first | rfl | skip
  · rw [xlt_fin, decide_eq_true_iff] at h; rw [xlt_fin, decide_eq_false_iff_not]; exact not_lt.mpr h.le
  · cases h

theorem srep_multiple {q : ℚ} (h : SRep q) : ∃ n : ℤ, q = n * 2 ^ (-1074 : ℤ) := by
  obtain ⟨n, hn⟩ := Rep.multiple h
  rcases abs_choice q with e | e
  · exact ⟨n, by rw [← e, hn]; push_cast; ring⟩
  · exact ⟨-n, by rw [← neg_neg q, ← e, hn]; push_cast; ring⟩

theorem multiple_gap {a b : ℚ} {k : ℤ} {m n : ℤ} (hm : a = m * 2 ^ k) (hn : b = n * 2 ^ k) (h : a < b) :
    (2 : ℚ) ^ k ≤ b - a := by
  have hp : (0 : ℚ) < 2 ^ k := zpow_pos (by norm_num) _
  rw [hm, hn] at h ⊢
  have h2 : m < n := by exact_mod_cast lt_of_mul_lt_mul_right h hp.le
  have h3 : (m : ℚ) + 1 ≤ n := by exact_mod_cast h2
  nlinarith

theorem srep_pow {k : ℤ} (h1 : -1074 ≤ k) (h2 : k ≤ 970) : SRep ((2 : ℚ) ^ k) := by
  simpa using srep_scaled (n := 1) (by norm_num) h1 h2

theorem srep_min : SRep ((2 : ℚ) ^ (-1074 : ℤ)) := srep_pow le_rfl (by norm_num)

/-- Different float64 numbers differ by at least the smallest float64. -/
theorem srep_gap {a b : ℚ} (ha : SRep a) (hb : SRep b) (h : a < b) : (2 : ℚ) ^ (-1074 : ℤ) ≤ b - a := by
  obtain ⟨m, hm⟩ := srep_multiple ha
  obtain ⟨n, hn⟩ := srep_multiple hb
  exact multiple_gap hm hn h

/-- The sign of a rounded difference is that of the exact one. -/
theorem sub_sign_fin {a b : ℚ} (ha : SRep a) (hb : SRep b) :
    XF.lt (.fin 0) (round64 (a - b)) = decide (b < a) ∧ XF.lt (round64 (a - b)) (.fin 0) = decide (a < b) := by
  have hp : (0 : ℚ) < 2 ^ (-1074 : ℤ) := zpow_pos (by norm_num) _
  rcases lt_trichotomy a b with h | rfl | h
  · have := round64_lt (q := a - b) srep_min hp (by have := srep_gap ha hb h; linarith)
    rw [this, lt_asymm_neg this]
    simp [h, h.le]
  · rw [sub_self, round64_rep srep_zero]
    simp [xlt_fin]
  · have := lt_round64 (q := a - b) srep_min hp (srep_gap hb ha h)
    rw [this, lt_asymm_pos this]
    simp [h, h.le]

theorem val_neg_one : (fl (-1) : B64).val = .fin (-1) := by simpa using B64.val_fl (-1) (by norm_num)

theorem mul_neg_one_val (y : B64) : (y *. fl (-1)).val = y.neg.val := by
  cases y with
  | nan => 
    obtain ⟨s, q, hq, e, -⟩ := B64.val_fin_iff.mp val_neg_one
    rw [e]; rfl
  | inf s =>
    obtain ⟨t, q, hq, e, e2⟩ := B64.val_fin_iff.mp val_neg_one
    have ht : t = true := by
      cases t with
      | true => rfl
      | false => have := hq.nonneg; simp [B64.signed] at e2; linarith
    have hq0 : q ≠ 0 := by rintro rfl; cases t <;> simp [B64.signed] at e2
    rw [e, ht]
    show (if q = 0 then B64.nan else B64.inf (s ^^ true)).val = _
    rw [if_neg hq0, Bool.xor_true]; rfl
  | fin s q hq =>
    rw [B64.val_mul (x := .fin s q hq) rfl val_neg_one, B64.val_neg (x := .fin s q hq) rfl, mul_neg_one]
    exact round64_rep (B64.srep_signed hq s).neg

theorem add_sign {x z y : B64} (hz : z.val = y.neg.val) :
    XF.lt (.fin 0) (x +. z).val = XF.lt y.val x.val ∧ XF.lt (x +. z).val (.fin 0) = XF.lt x.val y.val := by
  cases x with
  | nan =>
    have e : (B64.nan +. z : B64) = .nan := by cases z <;> rfl
    rw [e]
    cases y with
    | nan => exact ⟨rfl, rfl⟩
    | inf s => cases s <;> exact ⟨rfl, rfl⟩
    | fin s q hq => exact ⟨rfl, rfl⟩
  | inf s =>
    cases y with
    | nan =>
      cases z with
      | nan => cases s <;> exact ⟨rfl, rfl⟩
      | inf t => cases t <;> cases hz
      | fin t q hq => cases hz
    | inf t =>
      cases z with
      | nan => cases t <;> cases hz
      | inf u => cases s <;> cases t <;> cases u <;> first | exact ⟨rfl, rfl⟩ | (simp [B64.val, B64.neg] at hz)
      | fin u q hq => cases t <;> simp [B64.val, B64.neg] at hz
    | fin t q hq =>
      cases z with
      | nan => cases hz
      | inf u => cases u <;> cases hz
      | fin t q hq => cases s <;> exact ⟨rfl, rfl⟩
  | fin s p hp =>
    cases y with
    | nan =>
      cases z with
      | nan => exact ⟨rfl, rfl⟩
      | inf t => cases t <;> cases hz
      | fin t q hq => cases hz
    | inf t =>
      cases z with
      | nan => cases t <;> cases hz
      | inf u => cases t <;> cases u <;> first | exact ⟨rfl, rfl⟩ | (simp [B64.val, B64.neg] at hz)
      | fin u q hq => cases t <;> simp [B64.val, B64.neg] at hz
    | fin t q hq =>
      rw [B64.val_neg (x := .fin t q hq) rfl] at hz
      rw [B64.val_add (x := .fin s p hp) rfl hz, ← sub_eq_add_neg]
      have := sub_sign_fin (B64.srep_signed hp s) (B64.srep_signed hq t)
      rw [this.1, this.2]
      exact ⟨(xlt_fin _ _).symm, (xlt_fin _ _).symm⟩

/-- `Subtract` at one position: the result is positive exactly when the first is larger, for all float64s. -/
theorem subF_sign (x y : B64) : (fl 0 <. subF x y) = (y <. x) ∧ (subF x y <. fl 0) = (x <. y) := by
  have := add_sign (x := x) (mul_neg_one_val y)
  rw [← val_zero64] at this
  exact this

theorem sub_sign (x y : B64) : (fl 0 <. (x -. y)) = (y <. x) ∧ ((x -. y) <. fl 0) = (x <. y) := by
  have := add_sign (x := x) (y := y) (z := y.neg) rfl
  rw [← val_zero64] at this
  exact this

/-- Multiplication by a positive whole number keeps the sign, for all float64s. -/
theorem mul_sign (x : B64) {n : ℤ} (h1 : 1 ≤ n) (h2 : n ≤ 2 ^ 53) :
    (fl 0 <. (x *. fl n)) = (fl 0 <. x) ∧ ((x *. fl n) <. fl 0) = (x <. fl 0) := by
  have hn : (fl n : B64).val = .fin n := B64.val_fl n (by rw [abs_of_nonneg (by omega)]; exact h2)
  have h1' : (1 : ℚ) ≤ n := by exact_mod_cast h1
  show XF.lt (fl 0 : B64).val _ = XF.lt (fl 0 : B64).val _ ∧ XF.lt _ (fl 0 : B64).val = XF.lt _ (fl 0 : B64).val
  rw [val_zero64]
  cases x with
  | nan =>
    obtain ⟨s, q, hq, e, -⟩ := B64.val_fin_iff.mp hn
    rw [e]; exact ⟨rfl, rfl⟩
  | inf s =>
    obtain ⟨t, q, hq, e, e2⟩ := B64.val_fin_iff.mp hn
    have ht : t = false := by
      cases t with
      | false => rfl
      | true => have := hq.nonneg; simp [B64.signed] at e2; linarith
    have hq0 : q ≠ 0 := by
      rintro rfl
      rw [ht] at e2
      simp only [B64.signed] at e2
      have e2 : (0 : ℚ) = n := by simpa using e2
      linarith
    rw [e, ht]
    have e3 : (B64.inf s *. B64.fin false q hq : B64) = .inf s := by
      show (if q = 0 then B64.nan else B64.inf (s ^^ false)) = _
      rw [if_neg hq0, Bool.xor_false]
    rw [e3]; exact ⟨rfl, rfl⟩
  | fin s q hq =>
    have hx : (B64.fin s q hq).val = .fin (B64.signed s q) := rfl
    have hs := B64.val_srep hx
    rw [B64.val_mul hx hn, hx]
    rcases lt_trichotomy (B64.signed s q) 0 with h | h | h
    · have := round64_lt (q := B64.signed s q * n) hs.neg (by linarith) (by nlinarith)
      rw [this, lt_asymm_neg this]
      simp [xlt_fin, h, h.le]
    · rw [h, zero_mul, round64_rep srep_zero]
      exact ⟨rfl, rfl⟩
    · have := lt_round64 (q := B64.signed s q * n) hs h (by nlinarith)
      rw [this, lt_asymm_pos this]
      simp [xlt_fin, h, h.le]

/-- Two different numbers, one positive: their distance against that one. -/
theorem relative_gap {a b : ℚ} (ha : SRep a) (hb : SRep b) (h0 : 0 < b) (h : a ≠ b) :
    ∃ k : ℤ, -1074 ≤ k ∧ k ≤ 970 ∧ b ≤ 2 ^ (k + 54) ∧ (2 : ℚ) ^ k ≤ |a - b| := by
  have hp : ∀ k : ℤ, (0 : ℚ) < 2 ^ k := fun k => zpow_pos (by norm_num) k
  obtain ⟨h1, h2⟩ := binade_spec h0
  rw [pow2_eq] at h1 h2
  have hbr : Rep b := by rwa [SRep, abs_of_pos h0] at hb
  have hbin : binade b ≤ 1023 := by
    have h3 : (2 : ℚ) ^ binade b < 2 ^ (1024 : ℤ) := by
      refine (h1.trans hbr.2).trans_lt ?_
      rw [maxFinite, show (1024 : ℤ) = 53 + 971 by norm_num, zpow_add₀ (by norm_num), Nat.cast_mul, Nat.cast_pow 2 971,
        ← zpow_natCast]
      refine mul_lt_mul_of_pos_right ?_ (hp 971)
      norm_num
    have := (zpow_lt_zpow_iff_right₀ (by norm_num : (1 : ℚ) < 2)).mp h3
    omega
  refine ⟨max (binade b - 53) (-1074), by omega, by omega, ?_, ?_⟩
  · exact h2.le.trans (zpow_le_zpow_right₀ (by norm_num) (by omega))
  · by_cases hc : binade b - 53 ≤ -1074
    · rw [max_eq_right hc]
      rcases lt_or_gt_of_ne h with h | h
      · rw [abs_of_neg (by linarith), neg_sub]; exact srep_gap ha hb h
      · rw [abs_of_pos (by linarith)]; exact srep_gap hb ha h
    · rw [max_eq_left (by omega)]
      rcases lt_or_ge a (2 ^ (binade b - 1)) with hl | hl
      · have e : (2 : ℚ) ^ binade b = 2 * 2 ^ (binade b - 1) := by
          rw [zpow_sub_one₀ (by norm_num)]; ring
        have h3 : (2 : ℚ) ^ (binade b - 53) ≤ 2 ^ (binade b - 1) := zpow_le_zpow_right₀ (by norm_num) (by omega)
        rw [abs_of_neg (by rw [e] at h1; linarith [hp (binade b - 1)])]
        linarith
      · have har : Rep a := by rwa [SRep, abs_of_pos ((hp _).trans_le hl)] at ha
        have e1 : max (binade b - 1 - 52) (-1074) = binade b - 53 := by omega
        obtain ⟨m, hm⟩ := har.multiple_of_le hl
        obtain ⟨n, hn⟩ := hbr.multiple_of_le (b := binade b - 1)
          ((zpow_le_zpow_right₀ (by norm_num) (by omega)).trans h1)
        rw [e1] at hm hn
        rcases lt_or_gt_of_ne h with h | h
        · rw [abs_of_neg (by linarith), neg_sub]; exact multiple_gap hm hn h
        · rw [abs_of_pos (by linarith)]; exact multiple_gap hn hm h

/-- The sign of a relative difference, `(x - y)/y` with `Divide`'s treatment of infinite quotients. -/
theorem relative_sign {x y : B64} {a b : ℚ} (hx : x.val = .fin a) (hy : y.val = .fin b) (hb : 0 < b) (ha : 0 ≤ a)
    (hab : a ≤ 2 ^ 900 * b) :
    (fl 0 <. safeDiv (subF x y) y) = (y <. x) ∧ (safeDiv (subF x y) y <. fl 0) = (x <. y) := by
  have hsa := B64.val_srep hx
  have hsb := B64.val_srep hy
  obtain ⟨r, hr, hr1, hr2⟩ := round64_between (q := a - b) hsb.neg hsa (by linarith) (by linarith)
  have hs : (subF x y).val = .fin r := by rw [val_subF hx hy, hr]
  have hsr := B64.val_srep hs
  have h900 : SRep ((2 : ℚ) ^ (900 : ℤ)) := srep_pow (by norm_num) (by norm_num)
  have e900 : (2 : ℚ) ^ (900 : ℤ) = 2 ^ 900 := zpow_natCast 2 900
  obtain ⟨t, ht, ht1, ht2⟩ := round64_between (q := r / b) srep_one.neg h900
    (by rw [le_div_iff₀ hb]; linarith) (by rw [div_le_iff₀ hb, e900]; exact hr2.trans hab)
  have hq : (subF x y /. y).val = .fin t := by rw [B64.val_div hs hy hb.ne', ht]
  have hsd : safeDiv (subF x y) y = subF x y /. y := by
    obtain ⟨s, p, hp, e, -⟩ := B64.val_fin_iff.mp hq
    rw [safeDiv, e]
    rfl
  have hp : ∀ k : ℤ, (0 : ℚ) < 2 ^ k := fun k => zpow_pos (by norm_num) k
  have h54 : SRep ((2 : ℚ) ^ (-54 : ℤ)) := srep_pow (by norm_num) (by norm_num)
  show XF.lt (fl 0 : B64).val _ = XF.lt _ _ ∧ XF.lt _ (fl 0 : B64).val = XF.lt _ _
  rw [val_zero64, hsd, hx, hy, xlt_fin, xlt_fin, B64.val_div hs hy hb.ne']
  rcases lt_trichotomy a b with h | rfl | h
  · obtain ⟨k, k1, k2, k3, k4⟩ := relative_gap hsa hsb hb h.ne
    rw [abs_of_neg (by linarith)] at k4
    have h1 : r ≤ -2 ^ k := by
      have := roundS_mono (show a - b ≤ -2 ^ k by linarith)
      rw [roundS_rep (srep_pow k1 k2).neg] at this
      rw [round64] at hr
      split_ifs at hr
      cases hr
      exact this
    have : r / b ≤ -2 ^ (-54 : ℤ) := by
      rw [div_le_iff₀ hb]
      have : (2 : ℚ) ^ (-54 : ℤ) * b ≤ 2 ^ k := by
        calc (2 : ℚ) ^ (-54 : ℤ) * b ≤ 2 ^ (-54 : ℤ) * 2 ^ (k + 54) := mul_le_mul_of_nonneg_left k3 (hp _).le
          _ = 2 ^ k := by rw [← zpow_add₀ (by norm_num), show (-54 : ℤ) + (k + 54) = k by omega]
      linarith
    have := round64_lt (q := r / b) h54 (hp _) this
    rw [this, lt_asymm_neg this]
    simp [h, h.le]
  · rw [sub_self, round64_rep srep_zero] at hr
    cases hr
    rw [zero_div, round64_rep srep_zero]
    simp [xlt_fin]
  · obtain ⟨k, k1, k2, k3, k4⟩ := relative_gap hsa hsb hb h.ne'
    rw [abs_of_pos (by linarith)] at k4
    have h1 : 2 ^ k ≤ r := by
      have := roundS_mono (show 2 ^ k ≤ a - b by linarith)
      rw [roundS_rep (srep_pow k1 k2)] at this
      rw [round64] at hr
      split_ifs at hr
      cases hr
      exact this
    have : 2 ^ (-54 : ℤ) ≤ r / b := by
      rw [le_div_iff₀ hb]
      have : (2 : ℚ) ^ (-54 : ℤ) * b ≤ 2 ^ k := by
        calc (2 : ℚ) ^ (-54 : ℤ) * b ≤ 2 ^ (-54 : ℤ) * 2 ^ (k + 54) := mul_le_mul_of_nonneg_left k3 (hp _).le
          _ = 2 ^ k := by rw [← zpow_add₀ (by norm_num), show (-54 : ℤ) + (k + 54) = k by omega]
      linarith
    have := lt_round64 (q := r / b) h54 (hp _) this
    rw [this, lt_asymm_pos this]
    simp [h, h.le]

/-! ## The indicators -/

/-- The closes of a series. -/
def closes64 (it : Item B64) : List B64 := it.candles.map (·.close)

/-- The median prices of a series. -/
def medians64 (it : Item B64) : List B64 := it.candles.map fun c => (c.low +. c.high) *. (fl 1 /. fl 2)

/-- A line that is the difference of two other lines: the strategy, the line in its records, and the two lines. -/
inductive Gap : (I : Strat B64) → (I.D → B64) → (fast slow : Item B64 → Go (List B64)) → Prop
  | apo (p q : Int) : Gap (APO p q) (·.value) (fun it => Ema p (closes64 it)) (fun it => Ema q (closes64 it))
  | awesome : Gap Awesome (·.value) (fun it => Ema 5 (medians64 it)) (fun it => Ema 34 (medians64 it))
  | chaikin (p q : Int) : Gap (Chaikin p q) (·.value) (fun it => AD.GetValues it >>= Ema p)
      (fun it => AD.GetValues it >>= Ema q)
  | macdDif (s g l : Int) : Gap (MACD s g l) (·.dif) (fun it => Ema s (closes64 it)) (fun it => Ema l (closes64 it))
  | macdBar (s g l : Int) : Gap (MACD s g l) (·.macd) (fun it => (MACD s g l).data it >>= fun d => pure (d.map (·.dif)))
      (fun it => (MACD s g l).data it >>= fun d => pure (d.map (·.dea)))
  | ppoBar (p q s : Int) : Gap (PPO p q s) (·.histogram)
      (fun it => (PPO p q s).data it >>= fun d => pure (d.map (·.ppo)))
      (fun it => (PPO p q s).data it >>= fun d => pure (d.map (·.signal)))

theorem closes64_tab {it : Item B64} {n : Nat} {x : Nat → Candle B64} (hx : it.candles = tab n x) :
    closes64 it = tab n (cl x) := by rw [closes64, hx, map_tab]; rfl

theorem medians64_tab {it : Item B64} {n : Nat} {x : Nat → Candle B64} (hx : it.candles = tab n x) :
    medians64 it = tab n (medF x) := by rw [medians64, hx, map_tab]; rfl

/-- What the two lines of a difference are, candle by candle. -/
theorem Gap.forms {I : Strat B64} {line : I.D → B64} {fast slow : Item B64 → Go (List B64)} (h : Gap I line fast slow)
    {it : Item B64} {n : Nat} {x : Nat → Candle B64} (hx : it.candles = tab n x) :
    ∃ (G : (Nat → Candle B64) → Nat → I.D) (u v : Nat → B64), I.data it = .ok (tab n (G x)) ∧ fast it = .ok (tab n u) ∧ slow it = .ok (tab n v) ∧
      ∀ i, (fl 0 <. line (G x i)) = (v i <. u i) ∧ (line (G x i) <. fl 0) = (u i <. v i) := by
  cases h with
  | apo p q =>
    refine ⟨_, _, _, ((APO.makes p q).yields it n x hx).1 trivial, by beta_reduce; rw [closes64_tab hx, Ema_tab],
      by beta_reduce; rw [closes64_tab hx, Ema_tab], fun i => subF_sign _ _⟩
  | awesome =>
    refine ⟨_, _, _, (Awesome.appends.yields it n x hx).1 trivial, by beta_reduce; rw [medians64_tab hx, Ema_tab],
      by beta_reduce; rw [medians64_tab hx, Ema_tab], fun i => subF_sign _ _⟩
  | chaikin p q =>
    refine ⟨_, _, _, ((Chaikin.appends p q).yields it n x hx).1 trivial,
      by beta_reduce; rw [AD.GetValues_tab hx, ok_bind, Ema_tab], by beta_reduce; rw [AD.GetValues_tab hx, ok_bind, Ema_tab],
      fun i => subF_sign _ _⟩
  | macdDif s g l =>
    refine ⟨_, _, _, ((MACD.makes s g l).yields it n x hx).1 trivial, by beta_reduce; rw [closes64_tab hx, Ema_tab],
      by beta_reduce; rw [closes64_tab hx, Ema_tab], fun i => subF_sign _ _⟩
  | macdBar s g l =>
    have hd := ((MACD.makes (F := B64) s g l).yields it n x hx).1 trivial
    refine ⟨_, fun i => (MACD.out s g l x i).dif, fun i => (MACD.out s g l x i).dea, hd,
      by beta_reduce; rw [hd, ok_bind, map_tab]; rfl, by beta_reduce; rw [hd, ok_bind, map_tab]; rfl, fun i => ?_⟩
    have h1 := mul_sign ((MACD.out s g l x i).dif -. (MACD.out s g l x i).dea) (n := 2) (by norm_num) (by norm_num)
    have h2 := sub_sign (MACD.out s g l x i).dif (MACD.out s g l x i).dea
    exact ⟨h1.1.trans h2.1, h1.2.trans h2.2⟩
  | ppoBar p q s =>
    have hd := ((PPO.appends (F := B64) p q s).yields it n x hx).1 trivial
    exact ⟨_, fun i => (PPO.out p q s x i).ppo, fun i => (PPO.out p q s x i).signal, hd,
      by beta_reduce; rw [hd, ok_bind, map_tab]; rfl, by beta_reduce; rw [hd, ok_bind, map_tab]; rfl, fun i => subF_sign _ _⟩

/-- **C120 (differences).** For every float64 series, whatever it contains, the lines `Apo`, `AwesomeOscillator`,
`ChaikinOscillator`, the difference and the bar of `Macd` and the bar of `PPO` are positive exactly where the first of
the two lines they compare is larger, and negative exactly where it is smaller: rounding, underflow and overflow change
no sign. The two lines are there whenever the indicator is. -/
theorem C120_differences {I : Strat B64} {line : I.D → B64} {fast slow : Item B64 → Go (List B64)}
    (h : Gap I line fast slow) (it : Item B64) :
    ∃ (d : List I.D) (f s : List B64), I.data it = .ok d ∧ fast it = .ok f ∧ slow it = .ok s ∧ d.length = it.candles.length ∧
      f.length = it.candles.length ∧ s.length = it.candles.length ∧
      ∀ (i : Nat) r a b, d[i]? = some r → f[i]? = some a → s[i]? = some b →
        ((fl 0 <. line r) = (b <. a)) ∧ ((line r <. fl 0) = (a <. b)) := by
  obtain ⟨x, hx⟩ := candles_tab it
  obtain ⟨G, u, v, h1, h2, h3, h4⟩ := h.forms hx
  refine ⟨_, _, _, h1, h2, h3, by simp, by simp, by simp, fun i r a b hr ha hb => ?_⟩
  have hi : i < it.candles.length := by simpa using (List.getElem?_eq_some_iff.mp hr).1
  rw [tab_getElem?_lt hi] at hr ha hb
  cases hr; cases ha; cases hb
  exact h4 i

/-- The strategies whose signal is a change of sign of such a line. -/
inductive ZeroCross : (I : Strat B64) → (I.D → B64) → Prop
  | apo (p q : Int) : ZeroCross (APO p q) (·.value)
  | awesome : ZeroCross Awesome (·.value)
  | chaikin (p q : Int) : ZeroCross (Chaikin p q) (·.value)

theorem ltAsymm_B64 : LtAsymm B64 := fun a b h => ltAsymm_XF (K := ℚ) a.val b.val h

theorem ZeroCross.crossing {I : Strat B64} {line : I.D → B64} (h : ZeroCross I line) :
    Crossing I (fun r _ => line r) (fun _ _ => fl 0) := by
  cases h with
  | apo p q => exact .apo p q
  | awesome => exact .awesome
  | chaikin p q => exact .chaikin p q

/-- **C120 (signals).** `Apo`, `AwesomeOscillator` and `ChaikinOscillator` say `Buy` exactly where the fast float64
average was below the slow one at the previous candle and is above it now, and `Sell` exactly where it was above and is
below: the signals are those of the averages themselves, none is invented or lost by taking the difference. -/
theorem C120_signals {I : Strat B64} {line : I.D → B64} {fast slow : Item B64 → Go (List B64)}
    (hz : ZeroCross I line) (h : Gap I line fast slow) (it : Item B64) :
    ∃ (s : List Side) (f g : List B64), I.signals it = .ok s ∧ fast it = .ok f ∧ slow it = .ok g ∧
      ∀ (k : Nat) v a b a' b', s[k + 1]? = some v → f[k]? = some a → g[k]? = some b → f[k + 1]? = some a' →
        g[k + 1]? = some b' →
        (v = Buy ↔ (a <. b) = true ∧ (b' <. a') = true) ∧ (v = Sell ↔ (b <. a) = true ∧ (a' <. b') = true) ∧
        (v = Buy ∨ v = Sell ∨ v = Hold) := by
  obtain ⟨x, hx⟩ := candles_tab it
  obtain ⟨G, u, w, h1, h2, h3, h4⟩ := h.forms hx
  obtain ⟨ok, G', f, hy, hs, hf⟩ := hz.crossing.rule
  obtain ⟨hok, e⟩ := yields_inv hy hx h1
  refine ⟨_, _, _, (hs it _ x hx).1 hok, h2, h3, fun k v a b a' b' hv ha hb ha' hb' => ?_⟩
  have hi : k + 1 < it.candles.length := by simpa using (List.getElem?_eq_some_iff.mp hv).1
  rw [tab_getElem?_lt hi] at hv ha' hb'
  rw [tab_getElem?_lt (by omega)] at ha hb
  cases hv; cases ha; cases hb; cases ha'; cases hb'
  have e1 : ∀ j < it.candles.length, G' x j = G x j := fun j hj => by
    have := congrArg (fun l => l[j]?) e
    simp only [tab_getElem?_lt hj] at this
    exact (Option.some.inj this).symm
  rw [hf x k, e1 k (by omega), e1 (k + 1) hi]
  have hc := crossRule_iff ltAsymm_B64 (line (G x (k + 1))) (fl 0) (line (G x k)) (fl 0)
  refine ⟨?_, ?_, ?_⟩
  · rw [hc.1, (h4 k).2, (h4 (k + 1)).1]
  · rw [hc.2.1, (h4 k).1, (h4 (k + 1)).2]
  · rw [crossRule]; split_ifs <;> simp

/-- The volumes `VolumeOscillator` works with. -/
def volumes64 (it : Item B64) : List B64 := it.candles.map fun c => if isNaN c.volume then fl 0 else c.volume

/-- A line that is the difference of two others in percent of the second. -/
inductive Percent64 : (I : Indicator B64) → (I.D → B64) → (fast slow : Item B64 → Go (List B64)) → Prop
  | ppo (p q s : Int) : Percent64 (PPO p q s).toIndicator (·.ppo) (fun it => Ema p (closes64 it))
      (fun it => Ema q (closes64 it))
  | volume (p q : Int) : Percent64 (VolOsc p q) (·.value) (fun it => Ema p (volumes64 it))
      (fun it => Ema q (volumes64 it))

/-- **C120 (percentages).** The lines of `PPO` and `VolumeOscillator` are differences divided by the slow average. Where
the fast average is a number that is not negative, the slow one a positive number and their quotient at most `2^900`,
the sign of the percentage still is exactly the order of the two float64 averages. -/
theorem C120_percentages {I : Indicator B64} {line : I.D → B64} {fast slow : Item B64 → Go (List B64)}
    (h : Percent64 I line fast slow) (it : Item B64) :
    ∃ (d : List I.D) (f s : List B64), I.data it = .ok d ∧ fast it = .ok f ∧ slow it = .ok s ∧
      ∀ (i : Nat) r x y a b, d[i]? = some r → f[i]? = some x → s[i]? = some y → x.val = .fin a → y.val = .fin b →
        0 ≤ a → 0 < b → a ≤ 2 ^ 900 * b →
        ((fl 0 <. line r) = decide (b < a)) ∧ ((line r <. fl 0) = decide (a < b)) := by
  obtain ⟨c, hx⟩ := candles_tab it
  have key : ∀ {u v : B64} {a b : ℚ}, u.val = .fin a → v.val = .fin b → 0 ≤ a → 0 < b → a ≤ 2 ^ 900 * b →
      ((fl 0 <. (safeDiv (subF u v) v *. fl 100)) = decide (b < a)) ∧
      (((safeDiv (subF u v) v *. fl 100) <. fl 0) = decide (a < b)) := by
    intro u v a b hu hv h1 h2 h3
    have e1 := mul_sign (safeDiv (subF u v) v) (n := 100) (by norm_num) (by norm_num)
    have e2 := relative_sign hu hv h2 h1 h3
    exact ⟨e1.1.trans (e2.1.trans (B64.lt_val hv hu)), e1.2.trans (e2.2.trans (B64.lt_val hu hv))⟩
  cases h with
  | ppo p q s =>
    refine ⟨_, _, _, ((PPO.appends p q s).yields it _ c hx).1 trivial, by beta_reduce; rw [closes64_tab hx, Ema_tab],
      by beta_reduce; rw [closes64_tab hx, Ema_tab], fun i r x y a b hr hf hs h1 h2 h3 h4 h5 => ?_⟩
    have hi : i < it.candles.length := by simpa using (List.getElem?_eq_some_iff.mp hr).1
    rw [tab_getElem?_lt hi] at hr hf hs
    cases hr; cases hf; cases hs
    exact key h1 h2 h3 h4 h5
  | volume p q =>
    have hv : volumes64 it = tab it.candles.length (nzVol c) := by
      rw [volumes64]
      conv_lhs => rw [hx]
      rw [map_tab]; rfl
    refine ⟨_, _, _, ((VolOsc.makes p q).yields it _ c hx).1 trivial, by beta_reduce; rw [hv, Ema_tab],
      by beta_reduce; rw [hv, Ema_tab], fun i r x y a b hr hf hs h1 h2 h3 h4 h5 => ?_⟩
    have hi : i < it.candles.length := by simpa using (List.getElem?_eq_some_iff.mp hr).1
    rw [tab_getElem?_lt hi] at hr hf hs
    cases hr; cases hf; cases hs
    exact key h1 h2 h3 h4 h5

/-- Closes one step of float64 apart near 1: the averages differ by a rounding step, and `Apo` still sees it. -/
def tight64 : Item B64 :=
  item64 ([1, 1 + 1 / 2 ^ 52, 1, 1, 1 + 2 / 2 ^ 52].map fun c => ⟨c, c, c, c, 1⟩)

/-- `C120_differences` is about numbers here, and both signs occur. -/
example : ((APO 1 3).data tight64).map (fun d => d.map fun r => (decide (fl 0 <. r.value), decide (r.value <. fl 0))) =
    .ok [(false, false), (true, false), (false, false), (false, false), (true, false)] := by decide +kernel
example : ((APO 3 1).data tight64).map (fun d => d.map fun r => (decide (fl 0 <. r.value), decide (r.value <. fl 0))) =
    .ok [(false, false), (false, true), (false, false), (false, false), (false, true)] := by decide +kernel
/-- Closes that cross by the smallest possible amounts; the signals are those of the averages. -/
example : (APO 1 3).signals (item64 ([1, 1 - 1 / 2 ^ 53, 1 + 1 / 2 ^ 52, 1 - 1 / 2 ^ 52].map fun c => ⟨c, c, c, c, 1⟩)) =
    .ok [Buy, Hold, Buy, Sell] := by decide +kernel
/-- `C120_percentages` applies at candle 1 of `PPO` on these closes. -/
example : ((PPO 1 3 9).data tight64).map (fun d => d.map fun r => (decide (fl 0 <. r.ppo), decide (r.ppo <. fl 0))) =
    .ok [(false, false), (true, false), (false, false), (false, false), (true, false)] := by decide +kernel
example : ∃ x y : B64, (Ema 1 (closes64 tight64)).map (·[1]?) = .ok (some x) ∧
    (Ema 3 (closes64 tight64)).map (·[1]?) = .ok (some y) ∧ x.val = .fin (1 + 1 / 2 ^ 52) ∧ y.val = .fin 1 :=
  ⟨_, _, rfl, rfl, by decide +kernel, by decide +kernel⟩
/-- Without a bound on the quotient of the averages the percentage is lost: it overflows, and `Divide` turns it into 0. -/
theorem C120_bound_needed : ∃ it : Item B64, (it.candles.all fun c => decide (fl 0 <. c.close)) = true ∧
    ((PPO 3 1 9).data it).map (fun d => d.map fun r => r.ppo.val) = .ok [.fin 0, .fin 0] ∧
    (Ema 3 (closes64 it)).map (fun f => f.map (·.val)) = .ok [.fin (2 ^ 1000), .fin (2 ^ 999)] ∧
    (Ema 1 (closes64 it)).map (fun f => f.map (·.val)) = .ok [.fin (2 ^ 1000), .fin (1 / 2 ^ 100)] :=
  ⟨item64 ([2 ^ 1000, 1 / 2 ^ 100].map fun c => ⟨c, c, c, c, 1⟩), by decide +kernel, by decide +kernel, by decide +kernel,
    by decide +kernel⟩

end Verif.Props
