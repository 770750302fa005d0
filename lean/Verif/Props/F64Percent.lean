import Verif.Props.F64Base

/-!
# Oscillators in float64 arithmetic (C99, C100)

The ranges of C43, C44 and C45 for the rounded arithmetic of Go. The bounds come out exact, without a tolerance, since
rounding is monotone and 0, 1, 100 are float64 numbers.
-/

namespace Verif.Props
open Verif Verif.Klines Verif.Ta Verif.Ind GoFloat

/-! ## Stochastic oscillator and Williams %R -/

section pct
variable {x y z : B64} {c h l : ℚ}

/-- The three roundings of a place in a range, in per cent. -/
theorem place64 (hx : x.val = .fin c) (hy : y.val = .fin h) (hz : z.val = .fin l) (h0 : 0 ≤ l) (h1 : l ≤ c)
    (h2 : c ≤ h) : ∃ r, (safeDiv (subF x z) (subF y z) *. fl 100).val = .fin r ∧ 0 ≤ r ∧ r ≤ 100 := by
  obtain ⟨u, hu, u0, -⟩ := round64_between srep_zero (B64.val_srep hx) (sub_nonneg.mpr h1) (sub_le_self c h0)
  obtain ⟨v, hv, v0, -⟩ := round64_between srep_zero (B64.val_srep hy) (sub_nonneg.mpr (h1.trans h2)) (sub_le_self h h0)
  have huv : u ≤ v := round64_mono hu hv (by linarith)
  obtain ⟨q, hq, q0, q1⟩ := safeDiv64 ((val_subF hx hz).trans hu) ((val_subF hy hz).trans hv) u0 huv
  exact mul64 hq (by simpa using B64.val_fl 100 (by norm_num)) srep_zero srep_hundred (by linarith) (by linarith)

/-- The same for Williams %R, whose quotient is not guarded. -/
theorem williams64 (hx : x.val = .fin c) (hy : y.val = .fin h) (hz : z.val = .fin l) (h0 : 0 ≤ l) (h1 : l ≤ c)
    (h2 : c ≤ h) :
    (l < h → ∃ r, ((y -. x) /. (y -. z) *. fl (-100)).val = .fin r ∧ -100 ≤ r ∧ r ≤ 0) ∧
    (l = h → ((y -. x) /. (y -. z) *. fl (-100)).val = .nan) := by
  have h100 : (fl (-100) : B64).val = .fin (-100) := by simpa using B64.val_fl (-100) (by norm_num)
  constructor
  · intro hlt
    obtain ⟨u, hu, u0, -⟩ := round64_between srep_zero (B64.val_srep hy) (sub_nonneg.mpr h2) (sub_le_self h (h0.trans h1))
    obtain ⟨v, hv, v0, -⟩ := round64_sub_pos (B64.val_srep hz) (B64.val_srep hy) h0 hlt
    have huv : u ≤ v := round64_mono hu hv (by linarith)
    obtain ⟨q, hq, q0, q1⟩ := div64 ((B64.val_sub hy hx).trans hu) ((B64.val_sub hy hz).trans hv) v0.ne' srep_zero
      srep_one (div_nonneg u0 v0.le) ((div_le_one v0).mpr huv)
    exact mul64 hq h100 srep_hundred.neg srep_zero (by linarith) (by linarith)
  · rintro rfl
    obtain rfl := le_antisymm h1 h2
    have hn : ((y -. x) /. (y -. z)).val = .nan := by
      rw [B64.val_div_zero (a := 0), if_pos rfl]
      · rw [B64.val_sub hy hx, sub_self]; exact round64_rep srep_zero
      · rw [B64.val_sub hy hz, sub_self]; exact round64_rep srep_zero
    revert hn
    generalize (y -. x) /. (y -. z) = w
    intro hn
    cases w with
    | nan => rfl
    | inf s => cases s <;> simp [B64.val] at hn
    | fin s q hq => simp [B64.val] at hn

end pct

theorem IsGreatest.at64 {p : Nat} (hp : 0 < p) {a : Nat → ℚ} {i : Nat} {m : ℚ}
    (h : IsGreatest {v | ∃ j, i + 1 ≤ j + p ∧ j ≤ i ∧ a j = v} m) : a i ≤ m := h.2 ⟨i, by omega, le_rfl, rfl⟩

theorem IsLeast.at64 {p : Nat} (hp : 0 < p) {a : Nat → ℚ} {i : Nat} {m : ℚ}
    (h : IsLeast {v | ∃ j, i + 1 ≤ j + p ∧ j ≤ i ∧ a j = v} m) : m ≤ a i := h.2 ⟨i, by omega, le_rfl, rfl⟩

/-- **C99 (StochasticOscillator).** With float64 rounding, for every period, every number of candles and all finite
non-negative prices with low <= close <= high, every `%K` is a finite number between 0 and 100. -/
theorem C99_stochastic_k {p : Nat} (hp : 1 ≤ p) {it : Item B64} {bs : List (Bar ℚ)} (hb : Holds64 it bs)
    (hw : ∀ b ∈ bs, 0 ≤ b.l ∧ b.l ≤ b.c ∧ b.c ≤ b.h) {d : List (KD B64)} (hd : (Stoch p).data it = .ok d)
    {r : KD B64} (hr : r ∈ d) : ∃ k, r.k.val = .fin k ∧ 0 ≤ k ∧ k ≤ 100 := by
  obtain ⟨i, hr⟩ := List.mem_iff_getElem?.mp hr
  obtain ⟨x, b, hx, hbs, hc, -⟩ := hb.cols
  obtain ⟨hi, -, rfl⟩ := at64 (Stoch.appends p).yields hx hd hr
  have hw' : ∀ j < bs.length, 0 ≤ (b j).l ∧ (b j).l ≤ (b j).c ∧ (b j).c ≤ (b j).h := fun j hj =>
    hw _ (by rw [hbs]; exact mem_tab.mpr ⟨j, hj, rfl⟩)
  obtain ⟨H, eH, hH⟩ := maxF64 hp (x := Ind.hi x) (a := fun j => (b j).h) i (fun j _ => hc.hi j)
  obtain ⟨L, eL, hL⟩ := minF64 hp (x := Ind.lo x) (a := fun j => (b j).l) i (fun j _ => hc.lo j)
  obtain ⟨j, -, j2, j3⟩ := hL.1
  have h0 : 0 ≤ L := j3 ▸ (hw' j (by omega)).1
  show ∃ k, (safeDiv (subF (Ind.cl x i) (minF (p : Int).toNat (Ind.lo x) i))
    (subF (maxF (p : Int).toNat (Ind.hi x) i) (minF (p : Int).toNat (Ind.lo x) i)) *. fl 100).val = .fin k ∧ _
  rw [Int.toNat_natCast]
  exact place64 (hc.cl i) eH eL h0 ((IsLeast.at64 hp hL).trans (hw' i hi).2.1)
    ((hw' i hi).2.2.trans (IsGreatest.at64 hp hH))

/-- **C99 (WilliamsR).** With float64 rounding every `%R` is a finite number between -100 and 0, except when the
highest high of the window equals its lowest low: then it is NaN. -/
theorem C99_williams {p : Nat} (hp : 1 ≤ p) {it : Item B64} {bs : List (Bar ℚ)} (hb : Holds64 it bs)
    (hw : ∀ b ∈ bs, 0 ≤ b.l ∧ b.l ≤ b.c ∧ b.c ≤ b.h) {d : List (Rec B64)} (hd : (Williams p).data it = .ok d)
    {i : Nat} {r : Rec B64} (hr : d[i]? = some r) :
    ((∃ q ∈ window p i bs, ∃ q' ∈ window p i bs, q.l < q'.h) →
      ∃ v, r.value.val = .fin v ∧ -100 ≤ v ∧ v ≤ 0) ∧
    ((∀ q ∈ window p i bs, ∀ q' ∈ window p i bs, q.l = q'.h) → r.value.val = .nan) := by
  obtain ⟨x, b, hx, hbs, hc, -⟩ := hb.cols
  obtain ⟨hi, -, rfl⟩ := at64 (Williams.appends p).yields hx hd hr
  have hw' : ∀ j < bs.length, 0 ≤ (b j).l ∧ (b j).l ≤ (b j).c ∧ (b j).c ≤ (b j).h := fun j hj =>
    hw _ (by rw [hbs]; exact mem_tab.mpr ⟨j, hj, rfl⟩)
  obtain ⟨H, eH, hH⟩ := maxF64 hp (x := Ind.hi x) (a := fun j => (b j).h) i (fun j _ => hc.hi j)
  obtain ⟨L, eL, hL⟩ := minF64 hp (x := Ind.lo x) (a := fun j => (b j).l) i (fun j _ => hc.lo j)
  have h0 : 0 ≤ L := by
    obtain ⟨j, -, j2, j3⟩ := hL.1
    exact j3 ▸ (hw' j (by omega)).1
  have key := williams64 (hc.cl i) eH eL h0 ((IsLeast.at64 hp hL).trans (hw' i hi).2.1)
    ((hw' i hi).2.2.trans (IsGreatest.at64 hp hH))
  have hH' := isGreatest_window (n := bs.length) Bar.h b hi hH
  have hL' := isLeast_window (n := bs.length) Bar.l b hi hL
  rw [← hbs] at hH' hL'
  have hval : (Williams.out (p : Int) x i).value = (maxF p (Ind.hi x) i -. Ind.cl x i) /.
      (maxF p (Ind.hi x) i -. minF p (Ind.lo x) i) *. fl (-100) := by
    simp only [Williams.out, williamsF, Int.toNat_natCast]
  rw [hval]
  refine ⟨fun ⟨q, hq, q', hq', hlt⟩ => key.1 ?_, fun h => key.2 ?_⟩
  · exact (hL'.2 ⟨q, hq, rfl⟩).trans_lt (hlt.trans_le (hH'.2 ⟨q', hq', rfl⟩))
  · obtain ⟨q, hq, rfl⟩ := hL'.1
    obtain ⟨q', hq', rfl⟩ := hH'.1
    exact h q hq q' hq'

/-! ## Kdj -/

theorem lowF64 {x : Nat → B64} {a : Nat → ℚ} (h : ∀ j, (x j).val = .fin (a j)) (lo c : Nat) :
    ∃ m, (lowF x lo c).val = .fin m ∧ (∀ j ≤ c, m ≤ a (lo + j)) ∧ ∃ j ≤ c, a (lo + j) = m := by
  induction c with
  | zero => exact ⟨a lo, h lo, fun j hj => by obtain rfl : j = 0 := by omega
                                              exact le_rfl, 0, le_rfl, rfl⟩
  | succ c ih =>
    obtain ⟨m, hm, h1, j, hj, hj'⟩ := ih
    rw [lowF, B64.lt_val (h _) hm]
    by_cases hlt : a (lo + (c + 1)) < m
    · simp only [hlt, decide_true, if_true]
      refine ⟨_, h _, fun k hk => ?_, c + 1, le_rfl, rfl⟩
      rcases hk.eq_or_lt with rfl | hk
      · exact le_rfl
      · exact hlt.le.trans (h1 k (by omega))
    · simp only [hlt, decide_false, Bool.false_eq_true, if_false]
      refine ⟨_, hm, fun k hk => ?_, j, by omega, hj'⟩
      rcases hk.eq_or_lt with rfl | hk
      · exact not_lt.mp hlt
      · exact h1 k (by omega)

theorem highF64 {x : Nat → B64} {a : Nat → ℚ} (h : ∀ j, (x j).val = .fin (a j)) (lo c : Nat) :
    ∃ m, (highF x lo c).val = .fin m ∧ (∀ j ≤ c, a (lo + j) ≤ m) ∧ ∃ j ≤ c, a (lo + j) = m := by
  induction c with
  | zero => exact ⟨a lo, h lo, fun j hj => by obtain rfl : j = 0 := by omega
                                              exact le_rfl, 0, le_rfl, rfl⟩
  | succ c ih =>
    obtain ⟨m, hm, h1, j, hj, hj'⟩ := ih
    have e : (x (lo + (c + 1)) >. highF x lo c) = decide (m < a (lo + (c + 1))) := B64.lt_val hm (h _)
    rw [highF, e]
    by_cases hlt : m < a (lo + (c + 1))
    · simp only [hlt, decide_true, if_true]
      refine ⟨_, h _, fun k hk => ?_, c + 1, le_rfl, rfl⟩
      rcases hk.eq_or_lt with rfl | hk
      · exact le_rfl
      · exact (h1 k (by omega)).trans hlt.le
    · simp only [hlt, decide_false, Bool.false_eq_true, if_false]
      refine ⟨_, hm, fun k hk => ?_, j, by omega, hj'⟩
      rcases hk.eq_or_lt with rfl | hk
      · exact not_lt.mp hlt
      · exact h1 k (by omega)

/-- A finite value between 0 and 100. -/
def Pct (x : B64) : Prop := ∃ r, x.val = .fin r ∧ 0 ≤ r ∧ r ≤ 100

theorem pct_fl {n : Int} (h : 0 ≤ n ∧ n ≤ 100) : Pct (fl n) := by
  refine ⟨n, B64.val_fl n (by rw [abs_of_nonneg h.1]; omega), ?_, ?_⟩
  · exact_mod_cast h.1
  · exact_mod_cast h.2

theorem rsv64 {p : Nat} {x : Nat → Candle B64} {b : Nat → Bar ℚ} (hc : Cols64 x b) (i : Nat)
    (hw : ∀ j ≤ i, 0 ≤ (b j).l ∧ (b j).l ≤ (b j).c ∧ (b j).c ≤ (b j).h) : Pct (rsvF p x i) := by
  rw [rsvF]
  split
  · next hf =>
    simp only [kdjFull, Bool.and_eq_true, decide_eq_true_eq] at hf
    obtain ⟨L, eL, hL, jL, hjL, ejL⟩ := lowF64 hc.lo (i + 1 - p) (p - 1)
    obtain ⟨H, eH, hH, -⟩ := highF64 hc.hi (i + 1 - p) (p - 1)
    have hLi := hL (p - 1) le_rfl
    have hHi := hH (p - 1) le_rfl
    rw [show i + 1 - p + (p - 1) = i by omega] at hLi hHi
    have h0 : 0 ≤ L := ejL ▸ (hw _ (by omega)).1
    have hi := hw i le_rfl
    simp only [Int.toNat_natCast]
    obtain ⟨v, hv, v0, -⟩ := round64_between srep_zero (B64.val_srep eH) (sub_nonneg.mpr ((hLi.trans hi.2.1).trans
      (hi.2.2.trans hHi))) (sub_le_self H h0)
    obtain ⟨e, he, e0, -⟩ : ∃ e, (lit (1 / 1000000) : B64).val = .fin e ∧ 0 < e ∧ e ≤ 1 := by
      obtain ⟨e, he, e0, e1⟩ := round64_between (q := 1 / 1000000) (lo := 1 * 2 ^ (-20 : ℤ))
        (by rw [← Int.cast_one]; exact srep_scaled (by norm_num) (by norm_num) (by norm_num)) srep_one
        (by norm_num) (by norm_num)
      exact ⟨e, (B64.val_lit _).trans he, lt_of_lt_of_le (by norm_num) e0, e1⟩
    have hd := (B64.val_sub eH eL).trans hv
    rw [B64.lt_val hd he]
    by_cases hlt : v < e
    · simp only [hlt, decide_true, if_true]
      exact pct_fl (by norm_num)
    · simp only [hlt, decide_false, Bool.false_eq_true, if_false]
      have vp : 0 < v := e0.trans_le (not_lt.mp hlt)
      obtain ⟨u, hu, u0, -⟩ := round64_between srep_zero (B64.val_srep (hc.cl i))
        (sub_nonneg.mpr (hLi.trans hi.2.1)) (sub_le_self (b i).c h0)
      have huv : u ≤ v := round64_mono hu hv (by linarith)
      obtain ⟨q, hq, q0, q1⟩ := div64 ((B64.val_sub (hc.cl i) eL).trans hu) hd vp.ne' srep_zero
        srep_one (div_nonneg u0 vp.le) ((div_le_one vp).mpr huv)
      exact mul64 hq (by simpa using B64.val_fl 100 (by norm_num)) srep_zero srep_hundred (by linarith) (by linarith)
  · exact pct_fl (by norm_num)

/-- The float64 constants of the smoothing step add up to at most 1 in the rounded arithmetic. -/
theorem kdjStep64 {k r : B64} (hk : Pct k) (hr : Pct r) : Pct (twoThirds *. k +. oneThird *. r) := by
  obtain ⟨k, hk, k0, k1⟩ := hk
  obtain ⟨r, hr, r0, r1⟩ := hr
  have ht : (twoThirds : B64).val = .fin (6004799503160661 / 2 ^ 53) :=
    (B64.val_lit _).trans (by decide +kernel)
  have ho : (oneThird : B64).val = .fin (6004799503160661 / 2 ^ 54) :=
    (B64.val_lit _).trans (by decide +kernel)
  have eA : round64 (6004799503160661 / 2 ^ 53 * 100) = .fin (4691249611844266 / 2 ^ 46) := by decide +kernel
  have eB : round64 (6004799503160661 / 2 ^ 54 * 100) = .fin (4691249611844266 / 2 ^ 47) := by decide +kernel
  have eC : round64 (4691249611844266 / 2 ^ 46 + 4691249611844266 / 2 ^ 47) = .fin (7036874417766399 / 2 ^ 46) := by decide +kernel
  obtain ⟨u, hu, u0, -⟩ := round64_between (q := 6004799503160661 / 2 ^ 53 * k) srep_zero srep_hundred (by positivity)
    (by linarith)
  obtain ⟨v, hv, v0, -⟩ := round64_between (q := 6004799503160661 / 2 ^ 54 * r) srep_zero srep_hundred (by positivity)
    (by linarith)
  have uA := round64_mono hu eA (by linarith)
  have vB := round64_mono hv eB (by linarith)
  obtain ⟨w, hw, w0, -⟩ := round64_between (q := u + v) (hi := 200) srep_zero
    (by simpa using srep_int (n := 200) (by norm_num)) (by linarith) (by linarith)
  exact ⟨w, (B64.val_add ((B64.val_mul ht hk).trans hu) ((B64.val_mul ho hr).trans hv)).trans hw, w0,
    (round64_mono hw eC (by linarith)).trans (by norm_num)⟩

/-- **C99 (Kdj).** With float64 rounding RSV, K and D are finite numbers between 0 and 100 and J is a finite number
between -200 and 300. -/
theorem C99_kdj {p : Nat} {it : Item B64} {bs : List (Bar ℚ)} (hb : Holds64 it bs)
    (hw : ∀ b ∈ bs, 0 ≤ b.l ∧ b.l ≤ b.c ∧ b.c ≤ b.h) {ds : List (KDJ.Data B64)} (hd : (KDJ p).data it = .ok ds)
    {q : KDJ.Data B64} (hq : q ∈ ds) :
    ∃ r k d j, q.rsv.val = .fin r ∧ q.k.val = .fin k ∧ q.d.val = .fin d ∧ q.j.val = .fin j ∧
      (0 ≤ r ∧ r ≤ 100) ∧ (0 ≤ k ∧ k ≤ 100) ∧ (0 ≤ d ∧ d ≤ 100) ∧ -200 ≤ j ∧ j ≤ 300 := by
  obtain ⟨i, hr⟩ := List.mem_iff_getElem?.mp hq
  obtain ⟨x, b, hx, hbs, hc, -⟩ := hb.cols
  obtain ⟨hi, -, rfl⟩ := at64 (KDJ.makes p).yields hx hd hr
  have hw' : ∀ j ≤ i, 0 ≤ (b j).l ∧ (b j).l ≤ (b j).c ∧ (b j).c ≤ (b j).h := fun j hj =>
    hw _ (by rw [hbs]; exact mem_tab.mpr ⟨j, by omega, rfl⟩)
  have hK : ∀ m ≤ i, Pct (kF p x m) := by
    intro m hm
    induction m with
    | zero => exact pct_fl (by norm_num)
    | succ m ih =>
      rw [kF]
      split
      · exact kdjStep64 (ih (by omega)) (rsv64 hc _ fun j hj => hw' j (by omega))
      · exact pct_fl (by norm_num)
  have hD : ∀ m ≤ i, Pct (dF p x m) := by
    intro m hm
    induction m with
    | zero => exact pct_fl (by norm_num)
    | succ m ih =>
      rw [dF]
      split
      · exact kdjStep64 (ih (by omega)) (hK _ hm)
      · exact pct_fl (by norm_num)
  obtain ⟨r, e1, b1⟩ := rsv64 (p := p) hc i hw'
  obtain ⟨k, e2, b2⟩ := hK i le_rfl
  obtain ⟨d, e3, b3⟩ := hD i le_rfl
  have s3 : SRep 300 := by simpa using srep_int (n := 300) (by norm_num)
  have s2 : SRep 200 := by simpa using srep_int (n := 200) (by norm_num)
  obtain ⟨u, hu, u0, u1⟩ := mul64 (B64.val_fl 3 (by norm_num)) e2 srep_zero s3
    (by push_cast; linarith) (by push_cast; linarith)
  obtain ⟨v, hv, v0, v1⟩ := mul64 (B64.val_fl 2 (by norm_num)) e3 srep_zero s2
    (by push_cast; linarith) (by push_cast; linarith)
  obtain ⟨j, hj, j0, j1⟩ := sub64 hu hv s2.neg s3 (by linarith) (by linarith)
  exact ⟨r, k, d, j, e1, e2, e3, hj, b1, b2, b3, j0, j1⟩

/-- Prices that are not whole numbers: 1.5, 2.25, 2. -/
def bars64 : List (Bar ℚ) := [⟨1.5, 2, 1, 1.5, 3⟩, ⟨1.5, 2.5, 1.25, 2.25, 4⟩, ⟨2.25, 2.25, 1.75, 2, 0.5⟩]

theorem bars64_holds : Holds64 (item64 bars64) bars64 := holds_item64 (by decide +kernel)

theorem bars64_wf : ∀ b ∈ bars64, 0 ≤ b.l ∧ b.l ≤ b.c ∧ b.c ≤ b.h := by
  simp only [bars64, List.mem_cons, List.not_mem_nil, or_false, forall_eq_or_imp, forall_eq]
  norm_num

example : ((Stoch 2).data (item64 bars64)).map (List.map fun r => r.k.val) =
    .ok [.fin 50, .fin (2932031007402667 / 2 ^ 45), .fin 60] := by
  decide +kernel

/-- The hypothesis of `C99_williams` in both directions: a window with a range, and a flat one. -/
example : ((Williams 1).data (item64 [⟨1, 2, 1, 1, 0⟩, ⟨3, 3, 3, 3, 0⟩])).map (List.map fun r => r.value.val) =
    .ok [.fin (-100), .nan] := by
  decide +kernel

example : ((KDJ 2).data (item64 bars64)).map (List.map fun r => (r.rsv.val, r.k.val, r.j.val)) =
    .ok [(.fin 0, .fin 50, .fin 50),
      (.fin (2932031007402667 / 2 ^ 45), .fin (8600624288381155 / 2 ^ 47), .fin (1335703014483437 / 2 ^ 44)),
      (.fin 60, .fin (2137124823173499 / 2 ^ 45), .fin (4934499591717673 / 2 ^ 46))] := by
  decide +kernel

/-! ## RSI -/

/-- A price bound that leaves room for sums: `2^900`, about `8.5e270`. -/
def cap : ℚ := 2 ^ (900 : ℤ)

theorem cap_pos : 0 < cap := zpow_pos (by norm_num) _

theorem srep_cap {n : ℤ} (h : |n| ≤ 2 ^ 53) : SRep (n * cap) := srep_scaled h (by norm_num) (by norm_num)

/-- A finite value between 0 and `n` times the price bound. -/
def UpTo (n : ℤ) (x : B64) : Prop := ∃ r, x.val = .fin r ∧ 0 ≤ r ∧ r ≤ n * cap

section upto
variable {x y : B64} {m n : ℤ}

theorem UpTo.zero (h : 0 ≤ n) : UpTo n (fl 0) :=
  ⟨0, val_zero64, le_rfl, mul_nonneg (by exact_mod_cast h) cap_pos.le⟩

theorem UpTo.mono (hx : UpTo m x) (h : m ≤ n) : UpTo n x := by
  obtain ⟨r, hr, h0, h1⟩ := hx
  exact ⟨r, hr, h0, h1.trans (mul_le_mul_of_nonneg_right (by exact_mod_cast h) cap_pos.le)⟩

theorem UpTo.add (hx : UpTo m x) (hy : UpTo n y) (h : |m + n| ≤ 2 ^ 53) : UpTo (m + n) (x +. y) := by
  obtain ⟨a, ha, a0, a1⟩ := hx
  obtain ⟨b, hb, b0, b1⟩ := hy
  exact add64 ha hb srep_zero (srep_cap h) (by linarith) (by push_cast; linarith)

theorem UpTo.mul (hx : UpTo m x) (h0 : 0 ≤ n) (hn : |n| ≤ 2 ^ 53) (h : |m * n| ≤ 2 ^ 53) : UpTo (m * n) (x *. fl n) := by
  obtain ⟨a, ha, a0, a1⟩ := hx
  have h0' : (0 : ℚ) ≤ n := by exact_mod_cast h0
  refine mul64 ha (B64.val_fl n hn) srep_zero (srep_cap h) (mul_nonneg a0 h0') ?_
  push_cast
  calc a * n ≤ m * cap * n := mul_le_mul_of_nonneg_right a1 h0'
    _ = m * n * cap := by ring

theorem UpTo.mul' (hx : UpTo m x) (h0 : 0 ≤ n) (hn : |n| ≤ 2 ^ 53) (h : |n * m| ≤ 2 ^ 53) : UpTo (n * m) (fl n *. x) := by
  obtain ⟨a, ha, a0, a1⟩ := hx
  have h0' : (0 : ℚ) ≤ n := by exact_mod_cast h0
  refine mul64 (B64.val_fl n hn) ha srep_zero (srep_cap h) (mul_nonneg h0' a0) ?_
  push_cast
  calc n * a ≤ n * (m * cap) := mul_le_mul_of_nonneg_left a1 h0'
    _ = n * m * cap := by ring

theorem UpTo.div (hx : UpTo (m * n) x) (h0 : 0 < n) (hn : |n| ≤ 2 ^ 53) (h : |m| ≤ 2 ^ 53) : UpTo m (x /. fl n) := by
  obtain ⟨a, ha, a0, a1⟩ := hx
  have h0' : (0 : ℚ) < n := by exact_mod_cast h0
  refine div64 ha (B64.val_fl n hn) h0'.ne' srep_zero (srep_cap h) (div_nonneg a0 h0'.le) ?_
  rw [div_le_iff₀ h0']
  push_cast at a1
  linarith

end upto

theorem rsiStep64 {m : ℤ} {gl : B64 × B64} {y z : B64} {a b : ℚ} (hm : 0 ≤ m) (hm' : m < 2 ^ 53)
    (hg : UpTo m gl.1) (hl : UpTo m gl.2) (hy : y.val = .fin a) (hz : z.val = .fin b)
    (ha : 0 ≤ a ∧ a ≤ cap) (hb : 0 ≤ b ∧ b ≤ cap) :
    UpTo (m + 1) (rsiStep gl (y -. z)).1 ∧ UpTo (m + 1) (rsiStep gl (y -. z)).2 := by
  have hc : SRep cap := by simpa using srep_cap (n := 1) (by norm_num)
  have h1 : |m + 1| ≤ 2 ^ 53 := by rw [abs_of_nonneg (by omega)]; omega
  obtain ⟨d, hd, d0, d1⟩ := sub64 hy hz hc.neg hc (by linarith) (by linarith)
  rw [rsiStep, B64.lt_val hd val_zero64]
  by_cases h : d < 0
  · simp only [h, decide_true, if_true]
    refine ⟨hg.mono (by omega), ?_⟩
    obtain ⟨l, hl, l0, l1⟩ := hl
    exact sub64 hl hd srep_zero (srep_cap h1) (by linarith) (by push_cast; linarith)
  · simp only [h, decide_false, Bool.false_eq_true, if_false]
    refine ⟨?_, hl.mono (by omega)⟩
    exact hg.add ⟨d, hd, not_lt.mp h, by simpa using d1⟩ h1

theorem rsiVal64 {gl : B64 × B64} (hg : UpTo 1 gl.1) (hl : UpTo 1 gl.2) : Pct (rsiVal gl) := by
  obtain ⟨g, hg, g0, g1⟩ := hg
  obtain ⟨l, hl, l0, l1⟩ := hl
  obtain ⟨t, ht, t0, -⟩ := add64 hg hl (B64.val_srep hg) (srep_cap (n := 2) (by norm_num)) (by linarith)
    (by push_cast at *; linarith)
  obtain ⟨e, he, e0, -⟩ : ∃ e, (lit (1 / 100000000000000) : B64).val = .fin e ∧ 0 < e ∧ e ≤ 1 := by
    obtain ⟨e, he, e0, e1⟩ := round64_between (q := 1 / 100000000000000) (lo := 1 * 2 ^ (-50 : ℤ))
      (by rw [← Int.cast_one]; exact srep_scaled (by norm_num) (by norm_num) (by norm_num)) srep_one
      (by norm_num) (by norm_num)
    exact ⟨e, (B64.val_lit _).trans he, lt_of_lt_of_le (by norm_num) e0, e1⟩
  obtain ⟨f, hf, -, f0⟩ : ∃ f, (lit (-1 / 100000000000000) : B64).val = .fin f ∧ -1 ≤ f ∧ f < 0 := by
    obtain ⟨e, he, e0, e1⟩ := round64_between (q := -1 / 100000000000000) (hi := (-1 : ℤ) * 2 ^ (-50 : ℤ)) srep_one.neg
      (srep_scaled (by norm_num) (by norm_num) (by norm_num)) (by norm_num) (by norm_num)
    exact ⟨e, (B64.val_lit _).trans he, e0, lt_of_le_of_lt e1 (by norm_num)⟩
  rw [rsiVal, B64.lt_val hf ht, B64.lt_val ht he]
  have hft : f < t := by linarith
  simp only [hft, decide_true, Bool.true_and]
  by_cases h : t < e
  · simp only [h, decide_true, Bool.not_true, Bool.false_eq_true, if_false]
    exact pct_fl (by norm_num)
  · simp only [h, decide_false, Bool.not_false, if_true]
    have tp : 0 < t := e0.trans_le (not_lt.mp h)
    obtain ⟨q, hq, q0, q1⟩ := div64 hg ht tp.ne' srep_zero srep_one (div_nonneg g0 tp.le) ((div_le_one tp).mpr t0)
    exact mul64 (by simpa using B64.val_fl 100 (by norm_num)) hq srep_zero srep_hundred (by linarith) (by linarith)

theorem rsiW64 {p : Nat} (hp : 2 ≤ p) (hp' : p ≤ 2 ^ 53) {x : Nat → B64} {a : Nat → ℚ} (m : Nat)
    (h : ∀ j, (x j).val = .fin (a j)) (hb : ∀ j, 0 ≤ a j ∧ a j ≤ cap) :
    UpTo 1 (rsiW p x m).1 ∧ UpTo 1 (rsiW p x m).2 := by
  have hpa : |(p : ℤ)| ≤ 2 ^ 53 := by rw [abs_of_nonneg (by omega)]; exact_mod_cast hp'
  induction m with
  | zero =>
    have : ∀ k : Nat, k ≤ p → UpTo k (rsiInit x k).1 ∧ UpTo k (rsiInit x k).2 := by
      intro k hk
      induction k with
      | zero => exact ⟨UpTo.zero le_rfl, UpTo.zero le_rfl⟩
      | succ k ih =>
        have := ih (by omega)
        rw [rsiInit, Nat.cast_succ]
        exact rsiStep64 (by omega) (by omega) this.1 this.2 (h _) (h _) (hb _) (hb _)
    have := this p le_rfl
    rw [rsiW]
    exact ⟨UpTo.div (by rw [one_mul]; exact this.1) (by omega) hpa (by norm_num),
      UpTo.div (by rw [one_mul]; exact this.2) (by omega) hpa (by norm_num)⟩
  | succ m ih =>
    have hq : |(p : ℤ) - 1| ≤ 2 ^ 53 := by rw [abs_of_nonneg (by omega)]; omega
    have g1 := UpTo.mul ih.1 (n := (p : ℤ) - 1) (by omega) hq (by rwa [one_mul])
    have g2 := UpTo.mul ih.2 (n := (p : ℤ) - 1) (by omega) hq (by rwa [one_mul])
    rw [one_mul] at g1 g2
    have := rsiStep64 (gl := ((rsiW p x m).1 *. fl ((p : Int) - 1), (rsiW p x m).2 *. fl ((p : Int) - 1)))
      (by omega) (by omega) g1 g2 (h (p + m + 1)) (h (p + m)) (hb _) (hb _)
    rw [sub_add_cancel] at this
    rw [rsiW]
    exact ⟨UpTo.div (by rw [one_mul]; exact this.1) (by omega) hpa (by norm_num),
      UpTo.div (by rw [one_mul]; exact this.2) (by omega) hpa (by norm_num)⟩

/-- **C100 (Rsi).** With float64 rounding, for every period up to `2^53`, every number of candles and all finite closes
between 0 and `2^900`, every RSI value is a finite number between 0 and 100. (Closes near the largest float64 can make
the sums overflow, hence the bound.) -/
theorem C100_rsi {p : Nat} (hp : p ≤ 2 ^ 53) {it : Item B64} {bs : List (Bar ℚ)} (hb : Holds64 it bs)
    (hw : ∀ b ∈ bs, 0 ≤ b.c ∧ b.c ≤ 2 ^ 900) {d : List (Rec B64)} (hd : (RSI p).data it = .ok d)
    {r : Rec B64} (hr : r ∈ d) : ∃ v, r.value.val = .fin v ∧ 0 ≤ v ∧ v ≤ 100 := by
  obtain ⟨i, hr⟩ := List.mem_iff_getElem?.mp hr
  obtain ⟨x, b, hx, hbs, hc, hb0⟩ := hb.cols
  obtain ⟨hi, -, rfl⟩ := at64 (RSI.appends p).yields hx hd hr
  have hw' : ∀ j, 0 ≤ (b j).c ∧ (b j).c ≤ cap := by
    intro j
    by_cases hj : j < bs.length
    · have := hw _ (by rw [hbs]; exact mem_tab.mpr ⟨j, hj, rfl⟩)
      exact ⟨this.1, this.2.trans_eq (zpow_natCast 2 900).symm⟩
    · rw [hb0 j (by omega)]
      exact ⟨le_rfl, cap_pos.le⟩
  show Pct (rsiF (p : Int).toNat (Ind.cl x) i)
  rw [rsiF, Int.toNat_natCast]
  split
  · exact pct_fl (by norm_num)
  · have := rsiW64 (p := p) (by omega) hp (i - p) hc.cl hw'
    exact rsiVal64 this.1 this.2

theorem bars64_cap : ∀ b ∈ bars64, 0 ≤ b.c ∧ b.c ≤ 2 ^ 900 := by
  have h : ∀ b ∈ bars64, 0 ≤ b.c ∧ b.c ≤ 2 ^ 2 := by
    simp only [bars64, List.mem_cons, List.not_mem_nil, or_false, forall_eq_or_imp, forall_eq]
    norm_num
  exact fun b hb => ⟨(h b hb).1, (h b hb).2.trans (pow_le_pow_right₀ (by norm_num) (by norm_num))⟩

example : ((RSI 2).data (item64 (bars64 ++ bars64))).map (List.map fun r => r.value.val) =
    .ok [.fin 0, .fin 0, .fin 75, .fin (75 / 2), .fin 75, .fin (3769754152374857 / 2 ^ 46)] := by
  decide +kernel

end Verif.Props
