import Verif.Props.F64Wilder
import Verif.Props.Trailing

/-!
# Trailing stops in float64 turn where the exact ones turn (C144)
-/

namespace Verif.Props
open Verif Verif.Klines Verif.Ta Verif.Ind GoFloat

/-! ## The average true range of `ta.Atr` -/

theorem trStep64 {h l c : B64} {u v w : ℚ} (h1 : (h -. l).val = .fin u) (h2 : (c -. h).val = .fin v)
    (h3 : (c -. l).val = .fin w) : (trStep h l c).val = .fin (Max.max (Max.max u |v|) |w|) := by
  have a2 := B64.val_abs h2
  have a3 := B64.val_abs h3
  simp only [trStep]
  have g : (if GoFloat.abs (c -. h) >. (h -. l) then GoFloat.abs (c -. h) else h -. l).val = .fin (Max.max u |v|) := by
    rw [GoFloat.gt, B64.lt_val h1 a2]
    by_cases hh : u < |v|
    · rw [if_pos (by simpa using hh), a2, max_eq_right hh.le]
    · rw [if_neg (by simpa using hh), h1, max_eq_left (not_lt.mp hh)]
  rw [GoFloat.gt, B64.lt_val g a3]
  by_cases hh : Max.max u |v| < |w|
  · rw [if_pos (by simpa using hh), a3, max_eq_right hh.le]
  · rw [if_neg (by simpa using hh), g, max_eq_left (not_lt.mp hh)]

/-- Every price of the bars up to `i` is at most `2^k`. -/
def UpTo2 (k : ℤ) (b : Nat → Bar ℚ) (i : Nat) : Prop :=
  ∀ j ≤ i, |(b j).h| ≤ 2 ^ k ∧ |(b j).l| ≤ 2 ^ k ∧ |(b j).c| ≤ 2 ^ k

theorem UpTo2.mono {k : ℤ} {b : Nat → Bar ℚ} {i j : Nat} (h : UpTo2 k b i) (hj : j ≤ i) : UpTo2 k b j :=
  fun m hm => h m (by omega)

/-- The exact true ranges of the bars. -/
abbrev trQ (b : Nat → Bar ℚ) : Nat → ℚ := trK (fun i => (b i).h) (fun i => (b i).l) fun i => (b i).c

theorem trF_track {k : ℤ} (hk : -1021 ≤ k) (hk' : k ≤ 900) {x : Nat → Candle B64} {b : Nat → Bar ℚ} (hc : Cols64 x b)
    (i : Nat) (hb : UpTo2 k b i) : ∃ r, (trF (hi x) (lo x) (cl x) i).val = .fin r ∧ |r| ≤ 2 ^ (k + 1) ∧
      |r - trQ b i| ≤ 2 * 2 ^ (k - 54) := by
  cases i with
  | zero =>
    refine ⟨0, val_zero64, by rw [abs_zero]; exact (zpow_pos (by norm_num) _).le, ?_⟩
    rw [show trQ b 0 = 0 from rfl, sub_zero, abs_zero]
    exact mul_nonneg (by norm_num) (zpow_pos (by norm_num) _).le
  | succ i =>
    obtain ⟨h1, h2, -⟩ := hb (i + 1) le_rfl
    obtain ⟨-, -, h3⟩ := hb i (by omega)
    obtain ⟨u, hu, u1, u2⟩ := sub_track hk hk' (hc.hi (i + 1)) (hc.lo (i + 1)) h1 h2
    obtain ⟨v, hv, v1, v2⟩ := sub_track hk hk' (hc.cl i) (hc.hi (i + 1)) h3 h1
    obtain ⟨w, hw, w1, w2⟩ := sub_track hk hk' (hc.cl i) (hc.lo (i + 1)) h3 h2
    refine ⟨_, trStep64 hu hv hw, ?_, ?_⟩
    · refine abs_le.mpr ⟨(abs_le.mp u1).1.trans ((le_max_left _ _).trans (le_max_left _ _)), ?_⟩
      exact max_le (max_le (abs_le.mp u1).2 v1) w1
    · exact near_max (near_max u2 ((abs_abs_sub_abs_le _ _).trans v2)) ((abs_abs_sub_abs_le _ _).trans w2)

/-- The exact values of `ta.Atr`. -/
def atrQ (p : Nat) (b : Nat → Bar ℚ) (i : Nat) : ℚ :=
  if p = 1 then trQ b i else if i < p then 0 else wilderK p (rmaK p (trQ b) p).2 (trQ b) (i - p)

theorem atrI_exact {p n : Nat} (hp : 1 ≤ p) {y : Nat → Candle (XF ℚ)} {b : Nat → Bar ℚ} (hc : Cols n y b) :
    atrI p (hi y) (lo y) (cl y) = finF (atrQ p b) := by
  funext i
  rw [hc.hi, hc.lo, hc.cl, atrI, if_neg (by omega)]
  by_cases h : p = 1
  · subst h
    simp only [Nat.cast_one, if_true, trF_fin, atrQ, finF]
  · rw [if_neg (by omega), Int.toNat_natCast, atrF_fin (by omega), finF, atrQ, if_neg h]

theorem atrI_track {p : Nat} (hp : 1 ≤ p) (hp' : p ≤ 2 ^ 52) {k : ℤ} (hk : -1021 ≤ k) (hk' : k ≤ 900)
    {x : Nat → Candle B64} {b : Nat → Bar ℚ} (hc : Cols64 x b) (i : Nat) (hb : UpTo2 k b i) :
    ∃ r, (atrI p (hi x) (lo x) (cl x) i).val = .fin r ∧ |r| ≤ 2 ^ (k + 1) ∧ |r - atrQ p b i| ≤ (p + 1) * 2 ^ (k - 50) := by
  have hU : (0 : ℚ) < 2 ^ (k - 54) := zpow_pos (by norm_num) _
  have hp1 : (1 : ℚ) ≤ p := by exact_mod_cast hp
  have e50 : (2 : ℚ) ^ (k - 50) = 16 * 2 ^ (k - 54) := by
    rw [show k - 50 = k - 54 + 4 by ring, zpow_add₀ (by norm_num)]; norm_num; ring
  have e53 : (2 : ℚ) ^ (k + 1 - 54) = 2 * 2 ^ (k - 54) := by
    rw [show k + 1 - 54 = k - 54 + 1 by ring, zpow_add_one₀ (by norm_num)]; ring
  have e51 : (2 : ℚ) ^ (k + 1 - 51) = 16 * 2 ^ (k - 54) := by
    rw [show k + 1 - 51 = k - 54 + 4 by ring, zpow_add₀ (by norm_num)]; norm_num; ring
  rw [atrI, if_neg (by omega), atrQ, e50]
  by_cases h1 : p = 1
  · subst h1
    rw [if_pos (by norm_num), if_pos rfl]
    obtain ⟨r, h1, h2, h3⟩ := trF_track hk hk' hc i hb
    exact ⟨r, h1, h2, h3.trans (by push_cast; linarith)⟩
  rw [if_neg (by omega), if_neg h1, Int.toNat_natCast, atrF]
  by_cases hi : i < p
  · rw [if_pos hi, if_pos hi]
    refine ⟨0, val_zero64, by rw [abs_zero]; exact (zpow_pos (by norm_num) _).le, ?_⟩
    rw [sub_zero, abs_zero]; positivity
  rw [if_neg hi, if_neg hi]
  have key : ∀ j, ∃ r, j ≤ i → (trF (Ind.hi x) (lo x) (cl x) j).val = .fin r ∧ |r| ≤ 2 ^ (k + 1) ∧
      |r - trQ b j| ≤ 2 * 2 ^ (k - 54) := by
    intro j
    by_cases hj : j ≤ i
    · obtain ⟨r, hr⟩ := trF_track hk hk' hc j (hb.mono hj)
      exact ⟨r, fun _ => hr⟩
    · exact ⟨0, fun h => absurd h hj⟩
  choose v hv using key
  obtain ⟨-, t, -, g1, g2, g3, -⟩ := rmaS_track hp hp' (k := k + 1) (by omega) (by omega)
    (ε := 2 * 2 ^ (k - 54)) (by positivity) (a := trQ b) p
    (fun j hj => (hv j (by omega)).1) (fun j hj => (hv j (by omega)).2.1) (fun j _ hj => (hv j (by omega)).2.2)
  have steps : ∀ m, p + m ≤ i → ∃ r, (wilder p (rmaF p (trF (Ind.hi x) (lo x) (cl x)) p) (trF (Ind.hi x) (lo x) (cl x)) m).val = .fin r ∧
      |r| ≤ 2 ^ (k + 1) ∧ |r - wilderK p (rmaK p (trQ b) p).2 (trQ b) m| ≤ 2 * 2 ^ (k - 54) + p * (8 * 2 ^ (k + 1 - 54)) := by
    intro m
    induction m with
    | zero =>
      intro _
      refine ⟨t, g1, g2, ?_⟩
      rw [e51] at g3; rw [e53]
      exact g3.trans (le_of_eq (by ring))
    | succ m ih =>
      intro hm
      obtain ⟨r, r1, r2, r3⟩ := ih (by omega)
      obtain ⟨w1, w2, w3⟩ := hv (p + (m + 1)) hm
      have f1 : (fl p : B64).val = .fin p := by
        simpa using B64.val_fl (p : ℤ) (by rw [abs_of_nonneg (by omega)]; omega)
      have f2 : (fl p -. fl 1 : B64).val = .fin (p - 1) := by
        have h1 : (fl 1 : B64).val = .fin 1 := by simpa using B64.val_fl 1 (by norm_num)
        rw [B64.val_sub f1 h1]
        have := srep_int (n := (p : ℤ) - 1) (by rw [abs_of_nonneg (by omega)]; omega)
        push_cast at this
        exact round64_rep this
      obtain ⟨-, s, -, s1, s2, s3⟩ := wilder_step64 hp hp' (k := k + 1) (by omega) (by omega) (ε := 2 * 2 ^ (k - 54))
        (by positivity) r1 r2 r3 w1 w2 w3 f2 f1 rfl rfl
      exact ⟨s, s1, s2, s3⟩
  obtain ⟨r, r1, r2, r3⟩ := steps (i - p) (by omega)
  refine ⟨r, r1, r2, r3.trans ?_⟩
  rw [e53]; linarith

/-! ## Distances and levels -/

/-- The distance `n * atr` of a stop, and the level that far below or above a price. -/
theorem level_track {p n : Nat} (hp : 1 ≤ p) (hp' : p ≤ 2 ^ 52) (hn : 1 ≤ n) (hn' : n ≤ 2 ^ 50) {k : ℤ} (hk : -1021 ≤ k)
    (hk' : k ≤ 900) {x : Nat → Candle B64} {b : Nat → Bar ℚ} (hc : Cols64 x b) (i : Nat) (hb : UpTo2 k b i)
    {s : B64} {v a : ℚ} (hs : s.val = .fin v) (hv : |v| ≤ 2 ^ k) (he : |v - a| ≤ 4 * 2 ^ (k - 54)) :
    ∃ l u, (s -. fl n *. atrI p (hi x) (lo x) (cl x) i).val = .fin l ∧ (s +. fl n *. atrI p (hi x) (lo x) (cl x) i).val = .fin u ∧
      |l - (a - n * atrQ p b i)| ≤ (3 * n + 1) * (p + 1) * 2 ^ (k - 51) ∧
      |u - (a + n * atrQ p b i)| ≤ (3 * n + 1) * (p + 1) * 2 ^ (k - 51) := by
  obtain ⟨r, r1, r2, r3⟩ := atrI_track hp hp' hk hk' hc i hb
  have hU : (0 : ℚ) < 2 ^ (k - 54) := zpow_pos (by norm_num) _
  have hK : (0 : ℚ) < 2 ^ k := zpow_pos (by norm_num) _
  have e50 : (2 : ℚ) ^ (k - 50) = 16 * 2 ^ (k - 54) := by
    rw [show k - 50 = k - 54 + 4 by ring, zpow_add₀ (by norm_num)]; norm_num; ring
  have e51 : (2 : ℚ) ^ (k - 51) = 8 * 2 ^ (k - 54) := by
    rw [show k - 51 = k - 54 + 3 by ring, zpow_add₀ (by norm_num)]; norm_num; ring
  have e53 : (2 : ℚ) ^ (k + 1 - 54) = 2 * 2 ^ (k - 54) := by
    rw [show k + 1 - 54 = k - 54 + 1 by ring, zpow_add_one₀ (by norm_num)]; ring
  have e1 : (2 : ℚ) ^ (k + 1) = 2 * 2 ^ k := by rw [zpow_add_one₀ (by norm_num)]; ring
  have hn1 : (1 : ℚ) ≤ n := by exact_mod_cast hn
  have hp1 : (1 : ℚ) ≤ p := by exact_mod_cast hp
  obtain ⟨w, w1, w2, w3⟩ := round64_near hn (by omega) (q := (n : ℚ) * r) (k := k + 1) (by omega) (by omega)
    (by rw [abs_mul, abs_of_nonneg (by linarith)]; exact mul_le_mul_of_nonneg_left r2 (by linarith))
  have hw := (B64.val_mul (B64.val_fl (n : ℤ) (by rw [abs_of_nonneg (by omega)]; omega)) r1).trans (by push_cast; exact w1)
  have hsum : |v| + |w| ≤ ((2 * n + 1 : Nat) : ℚ) * 2 ^ k := by
    rw [e1] at w2; push_cast; linarith
  obtain ⟨l, l1, -, l3⟩ := round64_near (m := 2 * n + 1) (by omega) (by omega) (q := v - w) hk (by omega) ((abs_sub _ _).trans hsum)
  obtain ⟨u, u1, -, u3⟩ := round64_near (m := 2 * n + 1) (by omega) (by omega) (q := v + w) hk (by omega) ((abs_add_le _ _).trans hsum)
  refine ⟨l, u, (B64.val_sub hs hw).trans l1, (B64.val_add hs hw).trans u1, ?_⟩
  have hr : |(n : ℚ) * r - n * atrQ p b i| ≤ n * ((p + 1) * (16 * 2 ^ (k - 54))) := by
    rw [← mul_sub, abs_mul, abs_of_nonneg (by linarith)]
    rw [e50] at r3
    exact mul_le_mul_of_nonneg_left r3 (by linarith)
  have bound : 4 * 2 ^ (k - 54) + n * ((p + 1) * (16 * 2 ^ (k - 54))) + 2 * n * (2 * 2 ^ (k - 54)) +
      2 * (2 * n + 1) * 2 ^ (k - 54) ≤ (3 * n + 1) * (p + 1) * (8 * (2 : ℚ) ^ (k - 54)) := by
    have : (0 : ℚ) ≤ (8 * n * (p + 1) + 8 * (p + 1) - 8 * n - 6) := by nlinarith
    have := mul_nonneg this hU.le
    nlinarith
  rw [e53] at w3
  rw [e51]
  push_cast at l3 u3
  constructor
  · rw [abs_le] at *
    constructor <;> linarith
  · rw [abs_le] at *
    constructor <;> linarith

/-- Before the average true range exists it is 0, and a level is the price itself. -/
theorem level_early {p n : Nat} (hp : 1 ≤ p) (hn' : n ≤ 2 ^ 50) (x : Nat → Candle B64) (b : Nat → Bar ℚ) {i : Nat} (hi : i < p)
    {s : B64} {v : ℚ} (hs : s.val = .fin v) :
    (s -. fl n *. atrI p (Ind.hi x) (lo x) (cl x) i).val = .fin v ∧ (s +. fl n *. atrI p (Ind.hi x) (lo x) (cl x) i).val = .fin v ∧
      atrQ p b i = 0 := by
  have h0 : (atrI p (Ind.hi x) (lo x) (cl x) i).val = .fin 0 ∧ atrQ p b i = 0 := by
    rw [atrI, if_neg (by omega), atrQ]
    by_cases h1 : p = 1
    · obtain rfl : i = 0 := by omega
      subst h1
      rw [if_pos (by norm_num), if_pos rfl]
      exact ⟨val_zero64, rfl⟩
    · rw [if_neg (by omega), if_neg h1, Int.toNat_natCast, atrF, if_pos hi, if_pos hi]
      exact ⟨val_zero64, rfl⟩
  have hw := B64.val_mul (B64.val_fl (n : ℤ) (by rw [abs_of_nonneg (by omega)]; omega)) h0.1
  rw [mul_zero, round64_rep srep_zero] at hw
  have hv := round64_rep (B64.val_srep hs)
  refine ⟨(B64.val_sub hs hw).trans ?_, (B64.val_add hs hw).trans ?_, h0.2⟩
  · rw [sub_zero]; exact hv
  · rw [add_zero]; exact hv

theorem alike_of_same {x y : B64} {a b : ℚ} (hx : x.val = .fin a) (hy : y.val = .fin b) : Alike x y (.fin a) (.fin b) := by
  constructor
  · rw [B64.lt_val hx hy, XF.lt_fin]
  · rw [B64.lt_val hy hx, XF.lt_fin]

/-- `s` near `v`, and `c` farther from `v` or `s` exact: `c` is on the same side of both. -/
theorem same_side {c s v e : ℚ} (h : |s - v| ≤ e) (g : s = v ∨ e < |c - v|) : (s < c ↔ v < c) ∧ (c < s ↔ c < v) := by
  rcases g with rfl | g
  · simp
  · have h0 : |c - c| ≤ 0 := by simp
    exact ⟨lt_of_near h h0 (by rw [add_zero, abs_sub_comm]; exact g), lt_of_near h0 h (by rw [zero_add]; exact g)⟩

theorem near_max₂ {s v l m e : ℚ} (h1 : |s - v| ≤ e) (h2 : |l - m| ≤ e) : |Max.max s l - Max.max v m| ≤ e := near_max h1 h2

theorem near_min₂ {s v l m e : ℚ} (h1 : |s - v| ≤ e) (h2 : |l - m| ≤ e) : |Min.min s l - Min.min v m| ≤ e := by
  rw [abs_le] at *
  rcases min_cases s l with ⟨a, b⟩ | ⟨a, b⟩ <;> rcases min_cases v m with ⟨c, d⟩ | ⟨c, d⟩ <;> rw [a, c] <;>
    constructor <;> linarith

/-! ## UTBot -/

theorem ut_step64 {s pc c w : B64} {S P C l u : ℚ} (hs : s.val = .fin S) (hp : pc.val = .fin P) (hc : c.val = .fin C)
    (hl : (c -. w).val = .fin l) (hu : (c +. w).val = .fin u) : (UT.step s pc c w).val = .fin
    (if S < C ∧ S < P then Max.max S l else if C < S ∧ P < S then Min.min S u else if S < C then l else u) := by
  simp only [UT.step, GoFloat.gt, B64.lt_val hs hc, B64.lt_val hs hp, B64.lt_val hc hs, B64.lt_val hp hs,
    Bool.and_eq_true, decide_eq_true_iff]
  split
  · exact B64.val_max hs hl
  · split
    · exact B64.val_min hs hu
    · split
      · exact hl
      · exact hu

/-- The exact stops of `UTBot`. -/
def utQ (n p : Nat) (b : Nat → Bar ℚ) : Nat → ℚ
  | 0 => 0
  | k + 1 =>
    let s := utQ n p b k
    let c := (b (k + 1)).c
    let w := n * atrQ p b (k + 1)
    if s < c ∧ s < (b k).c then Max.max s (c - w) else if c < s ∧ (b k).c < s then Min.min s (c + w)
      else if s < c then c - w else c + w

theorem utF_exact {n p m : Nat} (hp : 1 ≤ p) {y : Nat → Candle (XF ℚ)} {b : Nat → Bar ℚ} (hc : Cols m y b) (i : Nat) :
    utF n p y i = .fin (utQ n p b i) := by
  induction i with
  | zero => simp [utF, utQ]
  | succ k ih =>
    rw [utF, ih, atrI_exact hp hc, hc.cl, XF.fl_fin]
    show UT.step (XF.fin _) (XF.fin _) (XF.fin _) (XF.fin _ *. XF.fin _) = _
    rw [XF.mul_fin, ut_step_fin, Int.cast_natCast]
    rfl

/-- **C144 (UTBot).** `E = (3 n + 1)(p + 1) 2^(k - 51)` for a stop at `n` times the average true range of `p` candles.
If from the first average on (candle `p`) no close comes within `E` of the exact stop of its candle or of the candle
before, every float64 stop is within `E`
of the exact one and the float64 signals are the exact ones. -/
theorem C144_utbot {n p : Nat} (hn : 1 ≤ n) (hn' : n ≤ 2 ^ 50) (hp : 1 ≤ p) (hp' : p ≤ 2 ^ 52) {k : ℤ} (hk : -1021 ≤ k)
    (hk' : k ≤ 900) {it : Item B64} {itX : Item (XF ℚ)} {bs : List (Bar ℚ)} (h : Holds64 it bs) (hX : Holds itX bs)
    (hb : PricesUpTo k bs) {d : List (UT.Data (XF ℚ))} (hd : (UT n p).data itX = .ok d)
    (hgap : ∀ (i : Nat) r, p ≤ i → d[i]? = some r → ∃ v, r.value = .fin v ∧ ∀ (j : Nat) b, j = i ∨ j = i + 1 →
      bs[j]? = some b → (3 * (n : ℚ) + 1) * (p + 1) * 2 ^ (k - 51) < |b.c - v|) :
    (∃ e, (UT n p).data it = .ok e ∧ e.length = d.length ∧ ∀ (i : Nat) r t, e[i]? = some r → d[i]? = some t →
      ∃ u v, r.value.val = .fin u ∧ t.value = .fin v ∧ |u - v| ≤ (3 * (n : ℚ) + 1) * (p + 1) * 2 ^ (k - 51)) ∧
    (UT n p).signals it = (UT n p).signals itX := by
  obtain ⟨x, y, b, hx, hy, hc, hc', hm⟩ := both_bars h hX
  obtain ⟨hok, rfl⟩ := yields_inv (UT.makes n p).yields hy hd
  set E : ℚ := (3 * (n : ℚ) + 1) * (p + 1) * 2 ^ (k - 51) with hE
  have hE0 : 0 ≤ E := by positivity
  have hgap' : ∀ i, p ≤ i + 1 → i + 1 < bs.length → ∀ j, j = i + 1 ∨ j = i + 2 → j < bs.length →
      E < |(b j).c - utQ n p b (i + 1)| := by
    intro i hpi hi j hj hj'
    obtain ⟨v, hv, hg⟩ := hgap (i + 1) _ hpi (tab_getElem?_lt (x := UT.out n p y) hi)
    have hv' : utF n p y (i + 1) = .fin v := hv
    rw [utF_exact hp hc'] at hv'
    cases hv'
    exact hg j _ (by omega) (hm j hj')
  have hup : ∀ i < bs.length, UpTo2 k b i := fun i hi j hj => hb _ (List.mem_of_getElem? (hm j (by omega)))
  have key : ∀ i < bs.length, ∃ s, (utF n p x i).val = .fin s ∧ |s - utQ n p b i| ≤ E ∧ (i < p → s = utQ n p b i) := by
    intro i
    induction i with
    | zero => exact fun _ => ⟨0, val_zero64, by rw [utQ, sub_zero, abs_zero]; exact hE0, fun _ => rfl⟩
    | succ i ih =>
      intro hi
      obtain ⟨s, h1, h2, h3⟩ := ih (by omega)
      obtain ⟨-, -, hcl⟩ := hup (i + 1) hi (i + 1) le_rfl
      have g : ∀ j, j = i ∨ j = i + 1 → (s < (b j).c ↔ utQ n p b i < (b j).c) ∧ ((b j).c < s ↔ (b j).c < utQ n p b i) := by
        intro j hj
        refine same_side h2 ?_
        by_cases hpi : i < p
        · exact .inl (h3 hpi)
        · obtain ⟨i, rfl⟩ : ∃ m, i = m + 1 := ⟨i - 1, by omega⟩
          exact .inr (hgap' i (by omega) (by omega) j (by omega) (by omega))
      by_cases hpi : i + 1 < p
      · obtain ⟨l1, u1, z⟩ := level_early hp hn' x b hpi (hc.cl (i + 1))
        have e : (if s < (b (i + 1)).c ∧ s < (b i).c then Max.max s (b (i + 1)).c else
            if (b (i + 1)).c < s ∧ (b i).c < s then Min.min s (b (i + 1)).c else
            if s < (b (i + 1)).c then (b (i + 1)).c else (b (i + 1)).c) = utQ n p b (i + 1) := by
          rw [h3 (by omega), utQ, z, mul_zero, sub_zero, add_zero]
        refine ⟨_, ut_step64 h1 (hc.cl i) (hc.cl (i + 1)) l1 u1, ?_, fun _ => e⟩
        rw [e, sub_self, abs_zero]
        exact hE0
      obtain ⟨l, u, l1, u1, l2, u2⟩ := level_track hp hp' hn hn' hk hk' hc (i + 1) (hup _ hi) (hc.cl (i + 1)) hcl
        (a := (b (i + 1)).c) (by rw [sub_self, abs_zero]; positivity)
      refine ⟨_, ut_step64 h1 (hc.cl i) (hc.cl (i + 1)) l1 u1, ?_, by omega⟩
      rw [utQ]
      simp only [(g i (.inl rfl)).1, (g i (.inl rfl)).2, (g (i + 1) (.inr rfl)).1, (g (i + 1) (.inr rfl)).2]
      split
      · exact near_max₂ h2 l2
      · split
        · exact near_min₂ h2 u2
        · split
          · exact l2
          · exact u2
  refine ⟨⟨_, ((UT.makes n p).yields it _ x hx).1 hok, by simp, fun i r t hr ht => ?_⟩, ?_⟩
  · have hi : i < bs.length := by simpa using (List.getElem?_eq_some_iff.mp hr).1
    rw [tab_getElem?_lt hi] at hr ht
    cases hr; cases ht
    cases i with
    | zero => exact ⟨0, 0, val_zero64, by simp [UT.out, UT.zero], by rw [sub_zero, abs_zero]; exact hE0⟩
    | succ i =>
      obtain ⟨s, h1, h2, -⟩ := key (i + 1) hi
      exact ⟨s, _, h1, utF_exact hp hc' _, h2⟩
  · rw [(UT.signals n p it _ x hx).1 hok, (UT.signals n p itX _ y hy).1 hok]
    refine congrArg _ (tab_ext fun i hi => ?_)
    have ak : ∀ j < bs.length, Alike (UT.out n p x j).close (UT.out n p x j).value (UT.out n p y j).close (UT.out n p y j).value := by
      intro j hj
      cases j with
      | zero =>
        have z : (fl 0 : XF ℚ) = .fin 0 := by simp
        show Alike (fl 0) (fl 0) (fl 0) (fl 0)
        rw [z]
        exact alike_of_eq val_zero64 val_zero64
      | succ j =>
        obtain ⟨s, h1, h2, h3⟩ := key (j + 1) hj
        show Alike (cl x (j + 1)) (utF n p x (j + 1)) (cl y (j + 1)) (utF n p y (j + 1))
        rw [utF_exact hp hc', hc'.cl]
        by_cases hpj : j + 1 < p
        · rw [h3 hpj] at h1
          exact alike_of_same (hc.cl _) h1
        · exact alike_of_near (hc.cl _) h1 (a := (b (j + 1)).c) (d := 0) (by simp) h2
            (by rw [zero_add]; exact hgap' j (by omega) hj _ (.inl rfl) hj)
    cases i with
    | zero => rfl
    | succ i =>
      have h1 := ak (i + 1) hi
      have h2 := ak i (by omega)
      simp only [pairSide, UT.rule, GoFloat.gt, h1.1, h1.2, h2.1, h2.2]

/-! ## SuperTrend -/

theorem nz64 {x : B64} {v : ℚ} (h : x.val = .fin v) (z : B64) : Nz x z = x := by
  rw [Nz, if_neg]
  rw [B64.isNaN_val, h]
  simp

theorem st_step64 {s : ST.St B64} {U D A B P C : ℚ} (bull : Bool) (hu : s.up.val = .fin U) (hd : s.dn.val = .fin D)
    (ht : s.trend.val = .fin (if bull then 1 else -1)) {src band pc c : B64} (hA : (src -. band).val = .fin A)
    (hB : (src +. band).val = .fin B) (hp : pc.val = .fin P) (hc : c.val = .fin C) :
    let U' := if U < P then Max.max A U else A
    let D' := if P < D then Min.min B D else B
    let bull' := if bull then !decide (C < U) else decide (D < C)
    let r := ST.step s src band pc c
    r.up.val = .fin U' ∧ r.dn.val = .fin D' ∧ r.trend.val = .fin (if bull' then 1 else -1) ∧
      r.upb.val = .fin (if !bull && bull' then U' else 0) ∧ r.dnb.val = .fin (if bull && !bull' then D' else 0) := by
  intro U' D' bull' r
  have f1 : (fl 1 : B64).val = .fin 1 := by simpa using B64.val_fl 1 (by norm_num)
  have fm : (fl (-1) : B64).val = .fin (-1) := by simpa using B64.val_fl (-1) (by norm_num)
  have t1 : (s.trend ==. fl 1) = bull := by
    rw [B64.eq_val ht f1]; cases bull <;> norm_num
  have tm : (s.trend ==. fl (-1)) = !bull := by
    rw [B64.eq_val ht fm]; cases bull <;> norm_num
  have e11 : ((fl 1 : B64) ==. fl 1) = true := by rw [B64.eq_val f1 f1]; norm_num
  have e1m : ((fl 1 : B64) ==. fl (-1)) = false := by rw [B64.eq_val f1 fm]; norm_num
  have em1 : ((fl (-1) : B64) ==. fl 1) = false := by rw [B64.eq_val fm f1]; norm_num
  have emm : ((fl (-1) : B64) ==. fl (-1)) = true := by rw [B64.eq_val fm fm]; norm_num
  have hU : (if pc >. s.up then GoFloat.max (src -. band) s.up else src -. band).val = .fin U' := by
    rw [GoFloat.gt, B64.lt_val hu hp]
    show _ = XF.fin (if _ then _ else _)
    by_cases g : U < P
    · rw [if_pos (by simpa using g), if_pos g]; exact B64.val_max hA hu
    · rw [if_neg (by simpa using g), if_neg g]; exact hA
  have hD : (if pc <. s.dn then GoFloat.min (src +. band) s.dn else src +. band).val = .fin D' := by
    rw [B64.lt_val hp hd]
    show _ = XF.fin (if _ then _ else _)
    by_cases g : P < D
    · rw [if_pos (by simpa using g), if_pos g]; exact B64.val_min hB hd
    · rw [if_neg (by simpa using g), if_neg g]; exact hB
  have hr : r = ST.step s src band pc c := rfl
  simp only [ST.step, nz64 hu, nz64 hd, nz64 ht, t1, tm, GoFloat.gt, B64.lt_val hd hc, B64.lt_val hc hu] at hr
  rw [GoFloat.gt] at hU
  generalize (if s.up <. pc then GoFloat.max (src -. band) s.up else src -. band) = u at hU hr
  generalize (if pc <. s.dn then GoFloat.min (src +. band) s.dn else src +. band) = d at hD hr
  have hb' : bull' = if bull then !decide (C < U) else decide (D < C) := rfl
  clear_value U' D' bull' r
  cases bull
  · by_cases g : D < C
    · simp only [g, Bool.not_false, decide_true, Bool.and_self, if_true, e11, e1m] at hr hb'
      simp only [Bool.false_eq_true, if_false] at hb'
      subst hr hb'
      exact ⟨hU, hD, f1, hU, val_zero64⟩
    · simp only [g, Bool.not_false, decide_false, Bool.and_false, Bool.false_and, Bool.false_eq_true, if_false, t1, tm, Bool.and_true] at hr hb'
      subst hr hb'
      exact ⟨hU, hD, ht, val_zero64, val_zero64⟩
  · by_cases g : C < U
    · simp only [g, Bool.not_true, decide_true, Bool.false_and, Bool.and_true, if_true, Bool.false_eq_true, if_false, em1, emm] at hr hb'
      subst hr hb'
      exact ⟨hU, hD, fm, val_zero64, hD⟩
    · simp only [g, Bool.not_true, decide_false, Bool.and_false, Bool.false_and, Bool.false_eq_true, if_false, if_true, t1, tm, Bool.and_true, Bool.not_false] at hr hb'
      subst hr hb'
      exact ⟨hU, hD, ht, val_zero64, val_zero64⟩

/-- The exact bands and direction of `SuperTrend`. -/
def stQ (n p : Nat) (b : Nat → Bar ℚ) : Nat → ℚ × ℚ × Bool
  | 0 => (0, 0, true)
  | k + 1 =>
    let s := stQ n p b k
    let m := ((b (k + 1)).h + (b (k + 1)).l) / 2
    let w := n * atrQ p b (k + 1)
    (if s.1 < (b k).c then Max.max (m - w) s.1 else m - w, if (b k).c < s.2.1 then Min.min (m + w) s.2.1 else m + w,
      if s.2.2 then !decide ((b (k + 1)).c < s.1) else decide (s.2.1 < (b (k + 1)).c))

/-- Whether the direction turns up at a candle. -/
def stUp (n p : Nat) (b : Nat → Bar ℚ) : Nat → Bool
  | 0 => false
  | k + 1 => !(stQ n p b k).2.2 && (stQ n p b (k + 1)).2.2

/-- Whether the direction turns down at a candle. -/
def stDown (n p : Nat) (b : Nat → Bar ℚ) : Nat → Bool
  | 0 => false
  | k + 1 => (stQ n p b k).2.2 && !(stQ n p b (k + 1)).2.2

theorem stF_exact {n p m : Nat} (hp : 1 ≤ p) {y : Nat → Candle (XF ℚ)} {b : Nat → Bar ℚ} (hc : Cols m y b) (i : Nat) :
    stF p n true y i = ⟨.fin (stQ n p b i).1, .fin (stQ n p b i).2.1, .fin (if (stQ n p b i).2.2 then 1 else -1),
      .fin (if stUp n p b i then (stQ n p b i).1 else 0), .fin (if stDown n p b i then (stQ n p b i).2.1 else 0)⟩ := by
  induction i with
  | zero => simp [stF, stQ, ST.init, stUp, stDown]
  | succ k ih =>
    have e2 : (fl 2 : XF ℚ) = .fin 2 := by simp
    rw [stF, stAtr, if_pos rfl, atrI_exact hp hc, hc.cl, hc.hi, hc.lo, e2, XF.fl_fin]
    show ST.step _ ((XF.fin _ +. XF.fin _) /. XF.fin 2) (XF.fin _ *. XF.fin _) (XF.fin _) (XF.fin _) = _
    rw [XF.add_fin, XF.div_fin (by norm_num), XF.mul_fin, Int.cast_natCast,
      st_step_fin _ (stQ n p b k).1 (stQ n p b k).2.1 (stQ n p b k).2.2 (by rw [ih]) (by rw [ih]) (by rw [ih])]
    rfl

theorem mid_track {k : ℤ} (hk : -1021 ≤ k) (hk' : k ≤ 900) {x y : B64} {a b : ℚ} (hx : x.val = .fin a)
    (hy : y.val = .fin b) (ha : |a| ≤ 2 ^ k) (hb : |b| ≤ 2 ^ k) :
    ∃ r, ((x +. y) /. fl 2).val = .fin r ∧ |r| ≤ 2 ^ k ∧ |r - (a + b) / 2| ≤ 4 * 2 ^ (k - 54) := by
  have f2 : (fl 2 : B64).val = .fin 2 := by simpa using B64.val_fl 2 (by norm_num)
  obtain ⟨s, s1, s2, s3⟩ := round64_near (m := 2) (by norm_num) (by norm_num) (q := a + b) hk (by omega)
    ((abs_add_le _ _).trans (by push_cast; linarith))
  push_cast at s2 s3
  obtain ⟨r, r1, r2, r3⟩ := round64_near (m := 1) (by norm_num) (by norm_num) (q := s / 2) hk (by omega)
    (by rw [abs_div, abs_two]; push_cast; linarith)
  refine ⟨r, (B64.val_div ((B64.val_add hx hy).trans s1) f2 (by norm_num)).trans r1, by simpa using r2, ?_⟩
  push_cast at r3
  rw [abs_le] at *
  constructor <;> linarith

/-- **C144 (SuperTrend).** `E = (3 n + 1)(p + 1) 2^(k - 51)` for bands at `n` times the average true range of `p` candles.
If from the second candle on neither exact band is within `E` of zero, of the close of its candle or of the close of the
next, both float64 bands are within `E` of the exact ones and the float64 signals are the exact ones. -/
theorem C144_supertrend {n p : Nat} (hn : 1 ≤ n) (hn' : n ≤ 2 ^ 50) (hp : 1 ≤ p) (hp' : p ≤ 2 ^ 52) {k : ℤ} (hk : -1021 ≤ k)
    (hk' : k ≤ 900) {it : Item B64} {itX : Item (XF ℚ)} {bs : List (Bar ℚ)} (h : Holds64 it bs) (hX : Holds itX bs)
    (hb : PricesUpTo k bs) {d : List (ST.Data (XF ℚ))} (hd : (ST p n true).data itX = .ok d)
    (hgap : ∀ (i : Nat) r, 1 ≤ i → d[i]? = some r → ∃ u v, r.up = .fin u ∧ r.down = .fin v ∧
      (3 * (n : ℚ) + 1) * (p + 1) * 2 ^ (k - 51) < |u| ∧ (3 * (n : ℚ) + 1) * (p + 1) * 2 ^ (k - 51) < |v| ∧
      ∀ (j : Nat) b, j = i ∨ j = i + 1 → bs[j]? = some b →
        (3 * (n : ℚ) + 1) * (p + 1) * 2 ^ (k - 51) < |b.c - u| ∧ (3 * (n : ℚ) + 1) * (p + 1) * 2 ^ (k - 51) < |b.c - v|) :
    (∃ e, (ST p n true).data it = .ok e ∧ e.length = d.length ∧ ∀ (i : Nat) r t, e[i]? = some r → d[i]? = some t →
      ∃ u u' v v', r.up.val = .fin u ∧ t.up = .fin u' ∧ r.down.val = .fin v ∧ t.down = .fin v' ∧
        |u - u'| ≤ (3 * (n : ℚ) + 1) * (p + 1) * 2 ^ (k - 51) ∧ |v - v'| ≤ (3 * (n : ℚ) + 1) * (p + 1) * 2 ^ (k - 51)) ∧
    (ST p n true).signals it = (ST p n true).signals itX := by
  obtain ⟨x, y, b, hx, hy, hc, hc', hm⟩ := both_bars h hX
  obtain ⟨hok, rfl⟩ := yields_inv (ST.makes p n true).yields hy hd
  set E : ℚ := (3 * (n : ℚ) + 1) * (p + 1) * 2 ^ (k - 51) with hE
  have hE0 : 0 ≤ E := by positivity
  have hgap' : ∀ i, i + 1 < bs.length → E < |(stQ n p b (i + 1)).1| ∧ E < |(stQ n p b (i + 1)).2.1| ∧
      ∀ j, j = i + 1 ∨ j = i + 2 → j < bs.length → E < |(b j).c - (stQ n p b (i + 1)).1| ∧ E < |(b j).c - (stQ n p b (i + 1)).2.1| := by
    intro i hi
    obtain ⟨u, v, hu, hv, g1, g2, hg⟩ := hgap (i + 1) _ (by omega) (tab_getElem?_lt (x := ST.out p n true y) hi)
    have hu' : (stF p n true y (i + 1)).up = .fin u := hu
    have hv' : (stF p n true y (i + 1)).dn = .fin v := hv
    rw [stF_exact hp hc'] at hu' hv'
    cases hu'; cases hv'
    exact ⟨g1, g2, fun j hj hj' => hg j _ (by omega) (hm j hj')⟩
  have hup : ∀ i < bs.length, UpTo2 k b i := fun i hi j hj => hb _ (List.mem_of_getElem? (hm j (by omega)))
  have key : ∀ i < bs.length, ∃ u v, (stF p n true x i).up.val = .fin u ∧ (stF p n true x i).dn.val = .fin v ∧
      (stF p n true x i).trend.val = .fin (if (stQ n p b i).2.2 then 1 else -1) ∧
      (stF p n true x i).upb.val = .fin (if stUp n p b i then u else 0) ∧
      (stF p n true x i).dnb.val = .fin (if stDown n p b i then v else 0) ∧
      |u - (stQ n p b i).1| ≤ E ∧ |v - (stQ n p b i).2.1| ≤ E ∧ (i = 0 → u = 0 ∧ v = 0) := by
    intro i
    induction i with
    | zero =>
      refine fun _ => ⟨0, 0, val_zero64, val_zero64, ?_, val_zero64, val_zero64, ?_, ?_, fun _ => ⟨rfl, rfl⟩⟩
      · show (fl 1 : B64).val = .fin 1
        simpa using B64.val_fl 1 (by norm_num)
      all_goals rw [stQ, sub_zero, abs_zero]; exact hE0
    | succ i ih =>
      intro hi
      obtain ⟨u, v, h1, h2, h3, -, -, h4, h5, h6⟩ := ih (by omega)
      obtain ⟨b1, b2, -⟩ := hup (i + 1) hi (i + 1) le_rfl
      obtain ⟨r, r1, r2, r3⟩ := mid_track hk hk' (hc.hi (i + 1)) (hc.lo (i + 1)) b1 b2
      obtain ⟨A, B, A1, B1, A2, B2⟩ := level_track hp hp' hn hn' hk hk' hc (i + 1) (hup _ hi) r1 r2 r3
      obtain ⟨k1, k2, k3, k4, k5⟩ := st_step64 _ h1 h2 h3 A1 B1 (hc.cl i) (hc.cl (i + 1))
      have g : ∀ j, j = i ∨ j = i + 1 → ((u < (b j).c ↔ (stQ n p b i).1 < (b j).c) ∧ ((b j).c < u ↔ (b j).c < (stQ n p b i).1)) ∧
          (v < (b j).c ↔ (stQ n p b i).2.1 < (b j).c) ∧ ((b j).c < v ↔ (b j).c < (stQ n p b i).2.1) := by
        intro j hj
        cases i with
        | zero =>
          obtain ⟨rfl, rfl⟩ := h6 rfl
          exact ⟨same_side h4 (.inl rfl), same_side h5 (.inl rfl)⟩
        | succ i =>
          obtain ⟨-, -, hg⟩ := hgap' i (by omega)
          obtain ⟨g1, g2⟩ := hg j (by omega) (by omega)
          exact ⟨same_side h4 (.inr g1), same_side h5 (.inr g2)⟩
      obtain ⟨⟨p1, p2⟩, p3, p4⟩ := g i (.inl rfl)
      obtain ⟨⟨q1, q2⟩, q3, q4⟩ := g (i + 1) (.inr rfl)
      simp only [p1, p4, q2, q3] at k1 k2 k3 k4 k5
      refine ⟨_, _, k1, k2, k3, k4, k5, ?_, ?_, by omega⟩
      · rw [stQ]
        dsimp only
        split
        · exact near_max₂ A2 h4
        · exact A2
      · rw [stQ]
        dsimp only
        split
        · exact near_min₂ B2 h5
        · exact B2
  refine ⟨⟨_, ((ST.makes p n true).yields it _ x hx).1 hok, by simp, fun i r t hr ht => ?_⟩, ?_⟩
  · have hi : i < bs.length := by simpa using (List.getElem?_eq_some_iff.mp hr).1
    rw [tab_getElem?_lt hi] at hr ht
    cases hr; cases ht
    obtain ⟨u, v, h1, h2, -, -, -, h4, h5, -⟩ := key i hi
    refine ⟨u, _, v, _, h1, ?_, h2, ?_, h4, h5⟩
    · show (stF p n true y i).up = _
      rw [stF_exact hp hc']
    · show (stF p n true y i).dn = _
      rw [stF_exact hp hc']
  · rw [(ST.signals p n true it _ x hx).1 hok, (ST.signals p n true itX _ y hy).1 hok]
    refine congrArg _ (tab_ext fun i hi => ?_)
    cases i with
    | zero => rfl
    | succ i =>
      obtain ⟨u, v, h1, h2, -, h6, h7, h4, h5, -⟩ := key (i + 1) hi
      obtain ⟨g1, g2, -⟩ := hgap' i hi
      have ne : ∀ {s t : ℚ}, |s - t| ≤ E → E < |t| → s ≠ 0 ∧ t ≠ 0 := by
        intro s t hs ht
        refine ⟨?_, ?_⟩
        · rintro rfl
          rw [zero_sub, abs_neg] at hs
          linarith
        · rintro rfl
          rw [abs_zero] at ht
          linarith
      obtain ⟨n1, n2⟩ := ne h4 g1
      obtain ⟨n3, n4⟩ := ne h5 g2
      have z : (fl 0 : XF ℚ) = .fin 0 := by simp
      have eu : ((stF p n true x (i + 1)).upb ==. fl 0) = ((stF p n true y (i + 1)).upb ==. fl 0) := by
        rw [B64.eq_val h6 val_zero64, stF_exact hp hc', z, XF.eq_fin]
        cases stUp n p b (i + 1) <;> simp [n1, n2]
      have ed : ((stF p n true x (i + 1)).dnb ==. fl 0) = ((stF p n true y (i + 1)).dnb ==. fl 0) := by
        rw [B64.eq_val h7 val_zero64, stF_exact hp hc', z, XF.eq_fin]
        cases stDown n p b (i + 1) <;> simp [n3, n4]
      simp only [pairSide, ST.rule₂, ST.rule, ST.out, eu, ed]
      rfl

/-! ## Non-vacuity -/

/-- Every record from `m` on satisfies `g` and, with the bars of its candle and of the next, `f`. -/
def stopsApart {D : Type} (m : Nat) (g : D → Bool) (f : D → Bar ℚ → Bool) (d : List D) (bs : List (Bar ℚ)) : Bool :=
  (List.range d.length).all fun i => i < m || (d[i]?.all fun r => g r && ((bs[i]?.all (f r)) && (bs[i + 1]?.all (f r))))

theorem stopsApart_spec {D : Type} {m : Nat} {g : D → Bool} {f : D → Bar ℚ → Bool} {d : List D} {bs : List (Bar ℚ)}
    (h : stopsApart m g f d bs = true) {i : Nat} {r : D} (hi : m ≤ i) (hr : d[i]? = some r) :
    g r = true ∧ ∀ (j : Nat) b, j = i ∨ j = i + 1 → bs[j]? = some b → f r b = true := by
  have hl : i < d.length := (List.getElem?_eq_some_iff.mp hr).1
  have := List.all_eq_true.mp h i (List.mem_range.mpr hl)
  rw [hr] at this
  simp only [Option.all_some, Bool.or_eq_true, decide_eq_true_iff, Bool.and_eq_true] at this
  rcases this with h0 | ⟨h0, h1, h2⟩
  · omega
  · refine ⟨h0, fun j b hj hb => ?_⟩
    rcases hj with rfl | rfl
    · rw [hb] at h1; exact h1
    · rw [hb] at h2; exact h2

/-- Bars with close 10, 9, 1, 15, 2 for the examples, at most `2^4`. -/
def turnBars : List (Bar ℚ) :=
  [⟨10, 10, 10, 10, 0⟩, ⟨10, 12, 9, 9, 0⟩, ⟨10, 10, 1, 1, 0⟩, ⟨13, 15, 13, 15, 0⟩, ⟨13, 16, 1, 2, 0⟩]

theorem turnBars_prices : PricesUpTo 4 turnBars := by unfold PricesUpTo; decide +kernel

/-- The stops of `turnBars` stay away from the closes. -/
example : (UT 1 2).signals (item64 turnBars) = (UT 1 2).signals (barItem turnBars) := by
  have hd : ∃ d, (UT (1 : Nat) (2 : Nat)).data (barItem turnBars) = .ok d ∧
      stopsApart 2 (fun r => match r.value with
        | .fin _ => true
        | _ => false) (fun r b => match r.value with
        | .fin v => decide ((3 * ((1 : Nat) : ℚ) + 1) * ((2 : Nat) + 1) * 2 ^ ((4 : ℤ) - 51) < |b.c - v|)
        | _ => false) d turnBars = true := by
    refine ⟨_, rfl, ?_⟩
    decide +kernel
  obtain ⟨d, hd, hg⟩ := hd
  refine (C144_utbot (n := 1) (p := 2) (by norm_num) (by norm_num) (by norm_num) (by norm_num) (k := 4) (by norm_num)
    (by norm_num) (holds_item64 (by decide +kernel)) (holds_barItem _) turnBars_prices hd fun i r hi hr => ?_).2
  obtain ⟨h1, h2⟩ := stopsApart_spec hg hi hr
  split at h1
  · next v e =>
    rw [e] at h2
    exact ⟨v, e, fun j b hj hb => of_decide_eq_true (h2 j b hj hb)⟩
  · cases h1

/-- There are signals to agree on. -/
example : (UT 1 2).signals (item64 turnBars) = .ok [Buy, Hold, Hold, Buy, Sell] ∧
    (ST 2 1 true).signals (item64 turnBars) = .ok [Buy, Hold, Sell, Buy, Sell] := by
  constructor <;> decide +kernel

/-- The bands of `turnBars` stay away from zero and from the closes. -/
example : (ST 2 1 true).signals (item64 turnBars) = (ST 2 1 true).signals (barItem turnBars) := by
  have hd : ∃ d, (ST (2 : Nat) (1 : Nat) true).data (barItem turnBars) = .ok d ∧
      stopsApart 1 (fun r => match r.up, r.down with
        | .fin u, .fin v => decide ((3 * ((1 : Nat) : ℚ) + 1) * ((2 : Nat) + 1) * 2 ^ ((4 : ℤ) - 51) < |u| ∧
            (3 * ((1 : Nat) : ℚ) + 1) * ((2 : Nat) + 1) * 2 ^ ((4 : ℤ) - 51) < |v|)
        | _, _ => false) (fun r b => match r.up, r.down with
        | .fin u, .fin v => decide ((3 * ((1 : Nat) : ℚ) + 1) * ((2 : Nat) + 1) * 2 ^ ((4 : ℤ) - 51) < |b.c - u| ∧
            (3 * ((1 : Nat) : ℚ) + 1) * ((2 : Nat) + 1) * 2 ^ ((4 : ℤ) - 51) < |b.c - v|)
        | _, _ => false) d turnBars = true := by
    refine ⟨_, rfl, ?_⟩
    decide +kernel
  obtain ⟨d, hd, hg⟩ := hd
  refine (C144_supertrend (n := 1) (p := 2) (by norm_num) (by norm_num) (by norm_num) (by norm_num) (k := 4) (by norm_num)
    (by norm_num) (holds_item64 (by decide +kernel)) (holds_barItem _) turnBars_prices hd fun i r hi hr => ?_).2
  obtain ⟨h1, h2⟩ := stopsApart_spec hg hi hr
  split at h1
  · next u v e1 e2 =>
    rw [e1, e2] at h2
    obtain ⟨g1, g2⟩ := of_decide_eq_true h1
    exact ⟨u, v, e1, e2, g1, g2, fun j b hj hb => of_decide_eq_true (h2 j b hj hb)⟩
  · cases h1

end Verif.Props
