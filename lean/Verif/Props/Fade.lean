import Verif.Props.Forget
import Verif.Props.VolumeLines
import Mathlib.Algebra.Order.Archimedean.Basic
import Mathlib.Tactic.Linarith
import Mathlib.Tactic.Positivity

/-!
# Fading memory (C116)

Exponential averages never forget a candle completely, but its weight shrinks geometrically. Exact arithmetic.
-/

set_option linter.unusedSectionVars false

namespace Verif.Props
open Verif Verif.Klines Verif.Ta Verif.Ind GoFloat XF

variable {K : Type} [Field K] [LinearOrder K] [IsStrictOrderedRing K]

/-! ## Vocabulary -/

/-- The series holds numbers, none beyond `B` or `-B`. -/
def Within (B : K) (it : Item (XF K)) : Prop :=
  ∃ bs, Holds it bs ∧ ∀ b ∈ bs, |b.o| ≤ B ∧ |b.h| ≤ B ∧ |b.l| ≤ B ∧ |b.c| ≤ B ∧ |b.v| ≤ B

/-- The memory of a line fades: for prices and volumes within given bounds and any tolerance there is a number of candles
after which two series with a common tail agree up to the tolerance, whatever came before the tail. -/
def Fades (I : Indicator (XF K)) (val : I.D → XF K) : Prop :=
  ∀ B ε : K, 0 < ε → ∃ w : Nat, ∀ (it it' : Item (XF K)) (k k' : Nat) (d d' : List I.D),
    Within B it → Within B it' → SameTail it it' k k' → I.data it = .ok d → I.data it' = .ok d' →
    ∀ (j : Nat) (r r' : I.D), w ≤ j → d[k + j]? = some r → d'[k' + j]? = some r' →
      ∃ a a', val r = .fin a ∧ val r' = .fin a' ∧ |a - a'| ≤ ε

/-! ## Calculus -/

/-- Columns of numbers within bounds. -/
def BddCols (B : K) (x : Nat → Candle (XF K)) : Prop :=
  ∃ n b, Cols n x b ∧ ∀ i, |(b i).o| ≤ B ∧ |(b i).h| ≤ B ∧ |(b i).l| ≤ B ∧ |(b i).c| ≤ B ∧ |(b i).v| ≤ B

theorem BddCols.fin {B : K} {x : Nat → Candle (XF K)} (h : BddCols B x) : FinCols x :=
  let ⟨n, b, hC, _⟩ := h
  ⟨n, b, hC⟩

/-- A line of numbers that is bounded for bounded data and whose memory fades. -/
structure Fade (f : (Nat → Candle (XF K)) → Nat → XF K) : Prop where
  bound : ∀ B, ∃ C, ∀ x, BddCols B x → ∃ a, f x = finF a ∧ ∀ i, |a i| ≤ C
  fade : ∀ B ε, 0 < ε → ∃ w, ∀ x x' a a', BddCols B x → BddCols B x' → f x = finF a → f x' = finF a' →
    ∀ i i', w ≤ i → w ≤ i' → (∀ j ≤ w, x (i - j) = x' (i' - j)) → |a i - a' i'| ≤ ε

theorem finF_inj {a a' : Nat → K} (h : finF a = finF a') : a = a' := funext fun i => fin_inj.mp (congrFun h i)

theorem Fade.of_local {w : Nat} {f : (Nat → Candle (XF K)) → Nat → XF K} (h : Local FinCols w f)
    (hb : ∀ B, ∃ C, ∀ x, BddCols B x → ∃ a, f x = finF a ∧ ∀ i, |a i| ≤ C) : Fade f where
  bound := hb
  fade _ ε hε := ⟨w, fun x x' a a' hx hx' ha ha' i i' hi hi' hj => by
    have e := h x x' hx.fin hx'.fin i i' hi hi' hj
    rw [ha, ha'] at e
    rw [fin_inj.mp e, sub_self, abs_zero]
    exact hε.le⟩

theorem Fade.map₂ {f g : (Nat → Candle (XF K)) → Nat → XF K} (hf : Fade f) (hg : Fade g) (op : XF K → XF K → XF K)
    (L M : K) (hL : 0 < |L|) (hM : 0 < |M|) (hop : ∀ a b : K, op (.fin a) (.fin b) = .fin (L * a + M * b)) :
    Fade fun x i => op (f x i) (g x i) where
  bound B := by
    obtain ⟨C, hC⟩ := hf.bound B
    obtain ⟨D, hD⟩ := hg.bound B
    refine ⟨|L| * C + |M| * D, fun x hx => ?_⟩
    obtain ⟨a, ea, ha⟩ := hC x hx
    obtain ⟨b, eb, hb⟩ := hD x hx
    refine ⟨fun i => L * a i + M * b i, by funext i; rw [ea, eb]; exact hop _ _, fun i => ?_⟩
    refine (abs_add_le _ _).trans ?_
    rw [abs_mul, abs_mul]
    exact add_le_add (mul_le_mul_of_nonneg_left (ha i) (abs_nonneg _)) (mul_le_mul_of_nonneg_left (hb i) (abs_nonneg _))
  fade B ε hε := by
    obtain ⟨w, hw⟩ := hf.fade B (ε / 2 / |L|) (by positivity)
    obtain ⟨v, hv⟩ := hg.fade B (ε / 2 / |M|) (by positivity)
    obtain ⟨C, hC⟩ := hf.bound B
    obtain ⟨D, hD⟩ := hg.bound B
    refine ⟨Max.max w v, fun x x' c c' hx hx' hc hc' i i' hi hi' hj => ?_⟩
    obtain ⟨a, ea, -⟩ := hC x hx
    obtain ⟨b, eb, -⟩ := hD x hx
    obtain ⟨a', ea', -⟩ := hC x' hx'
    obtain ⟨b', eb', -⟩ := hD x' hx'
    have h1 := hw x x' a a' hx hx' ea ea' i i' (by omega) (by omega) fun j h => hj j (by omega)
    have h2 := hv x x' b b' hx hx' eb eb' i i' (by omega) (by omega) fun j h => hj j (by omega)
    have e := congrFun hc i
    have e' := congrFun hc' i'
    simp only [ea, eb, ea', eb', finF, hop] at e e'
    rw [← fin_inj.mp e, ← fin_inj.mp e',
      show L * a i + M * b i - (L * a' i' + M * b' i') = L * (a i - a' i') + M * (b i - b' i') by ring]
    refine (abs_add_le _ _).trans ?_
    rw [abs_mul, abs_mul]
    rw [le_div_iff₀' hL] at h1
    rw [le_div_iff₀' hM] at h2
    linarith

theorem Fade.sub {f g : (Nat → Candle (XF K)) → Nat → XF K} (hf : Fade f) (hg : Fade g) :
    Fade fun x i => subF (f x i) (g x i) :=
  hf.map₂ hg subF 1 (-1) (by norm_num) (by norm_num) fun a b => by rw [subF_fin]; congr 1; ring

theorem contract {u u' v v' : Nat → K} {q c ε D : K} {i i' m : Nat} (hq : 0 ≤ q) (hc : 0 ≤ c) (hqc : q + c ≤ 1)
    (hε : 0 ≤ ε) (hu : ∀ t < m, u (i + t + 1) = q * u (i + t) + c * v (i + t + 1))
    (hu' : ∀ t < m, u' (i' + t + 1) = q * u' (i' + t) + c * v' (i' + t + 1))
    (hv : ∀ t < m, |v (i + t + 1) - v' (i' + t + 1)| ≤ ε) (hD : |u i - u' i'| ≤ D) :
    |u (i + m) - u' (i' + m)| ≤ q ^ m * D + ε := by
  induction m with
  | zero => simpa using hD.trans (le_add_of_nonneg_right hε)
  | succ m ih =>
    have h := ih (fun t ht => hu t (by omega)) (fun t ht => hu' t (by omega)) fun t ht => hv t (by omega)
    rw [← Nat.add_assoc, ← Nat.add_assoc, hu m (by omega), hu' m (by omega),
      show q * u (i + m) + c * v (i + m + 1) - (q * u' (i' + m) + c * v' (i' + m + 1)) =
        q * (u (i + m) - u' (i' + m)) + c * (v (i + m + 1) - v' (i' + m + 1)) by ring]
    refine (abs_add_le _ _).trans ?_
    rw [abs_mul, abs_mul, abs_of_nonneg hq, abs_of_nonneg hc]
    have h1 := mul_le_mul_of_nonneg_left h hq
    have h2 := mul_le_mul_of_nonneg_left (hv m (by omega)) hc
    have h3 := mul_le_mul_of_nonneg_right hqc hε
    calc _ ≤ q * (q ^ m * D + ε) + c * ε := add_le_add h1 h2
      _ = q ^ (m + 1) * D + (q + c) * ε := by ring
      _ ≤ q ^ (m + 1) * D + ε := by linarith

section archimedean
variable [Archimedean K]

/-- A line that keeps the fraction `q` of itself and takes the rest from a line that fades. -/
theorem Fade.smooth {f g : (Nat → Candle (XF K)) → Nat → XF K} (hf : Fade f) {q c : K} (i0 : Nat) (hq : 0 ≤ q)
    (hq1 : q < 1) (hc : 0 ≤ c) (hqc : q + c ≤ 1)
    (hb : ∀ B, ∃ C, ∀ x, BddCols B x → ∃ a, g x = finF a ∧ ∀ i, |a i| ≤ C)
    (hg : ∀ x a v, f x = finF v → g x = finF a → ∀ i, i0 ≤ i → a (i + 1) = q * a i + c * v (i + 1)) : Fade g where
  bound := hb
  fade B ε hε := by
    obtain ⟨w, hw⟩ := hf.fade B (ε / 2) (by linarith)
    obtain ⟨C, hC⟩ := hb B
    obtain ⟨D, hD⟩ := hf.bound B
    obtain ⟨m, hm⟩ := exists_pow_lt_of_lt_one (show 0 < ε / 2 / (2 * |C| + 1) by positivity) hq1
    refine ⟨w + m + i0, fun x x' a a' hx hx' ha ha' i i' hi hi' hj => ?_⟩
    obtain ⟨v, ev, -⟩ := hD x hx
    obtain ⟨v', ev', -⟩ := hD x' hx'
    obtain ⟨_, ea, hA⟩ := hC x hx
    obtain ⟨_, ea', hA'⟩ := hC x' hx'
    obtain rfl := finF_inj (ha.symm.trans ea)
    obtain rfl := finF_inj (ha'.symm.trans ea')
    have key := contract (u := a) (u' := a') (v := v) (v' := v') (q := q) (c := c) (ε := ε / 2) (D := 2 * |C|)
      (i := i - m) (i' := i' - m) (m := m) hq hc hqc (by linarith) (fun t _ => hg x a v ev ha _ (by omega))
      (fun t _ => hg x' a' v' ev' ha' _ (by omega))
      (fun t ht => hw x x' v v' hx hx' ev ev' _ _ (by omega) (by omega) fun j h => by
        have := hj (m - 1 - t + j) (by omega)
        rwa [show i - (m - 1 - t + j) = i - m + t + 1 - j by omega,
          show i' - (m - 1 - t + j) = i' - m + t + 1 - j by omega] at this)
      (by
        have h1 := abs_sub (a (i - m)) (a' (i' - m))
        have h2 := hA (i - m)
        have h3 := hA' (i' - m)
        have h4 := le_abs_self C
        linarith)
    rw [show i - m + m = i by omega, show i' - m + m = i' by omega] at key
    refine key.trans ?_
    have h1 : q ^ m * (2 * |C|) ≤ ε / 2 := by
      rw [lt_div_iff₀ (by positivity)] at hm
      have : 0 ≤ q ^ m := pow_nonneg hq m
      nlinarith
    linarith

theorem Fade.ema {f : (Nat → Candle (XF K)) → Nat → XF K} (hf : Fade f) {p : Nat} (hp : 0 < p) :
    Fade fun x => emaF p (f x) := by
  have hp1 : (1 : K) ≤ p := by exact_mod_cast hp
  have hpos : (0 : K) < p + 1 := by linarith
  refine hf.smooth (q := ((p : K) - 1) / (p + 1)) (c := 2 / (p + 1)) 0 (div_nonneg (by linarith) hpos.le)
    ((div_lt_one hpos).mpr (by linarith)) (by positivity) (le_of_eq (by field_simp; ring)) (fun B => ?_)
    fun x a v hv ha i _ => ?_
  · obtain ⟨C, hC⟩ := hf.bound B
    refine ⟨C, fun x hx => ?_⟩
    obtain ⟨v, ev, hv⟩ := hC x hx
    refine ⟨emaK p v, by funext i; rw [ev, emaF_fin], fun i => ?_⟩
    induction i with
    | zero => exact hv 0
    | succ i ih =>
      rw [emaK, abs_div, abs_of_pos hpos, div_le_iff₀ hpos]
      refine (abs_add_le _ _).trans ?_
      rw [abs_mul, abs_mul, abs_of_nonneg (show (0 : K) ≤ 2 by norm_num), abs_of_nonneg (show (0 : K) ≤ p - 1 by linarith)]
      have h1 := hv (i + 1)
      have h2 := mul_le_mul_of_nonneg_left ih (show (0 : K) ≤ p - 1 by linarith)
      linarith
  · obtain rfl : emaK p v = a := finF_inj (by rw [← ha, hv]; funext j; rw [emaF_fin])
    rw [emaK]
    field_simp
    ring

theorem Fade.rma {f : (Nat → Candle (XF K)) → Nat → XF K} (hf : Fade f) {p : Nat} (hp : 0 < p) :
    Fade fun x => rmaF p (f x) := by
  have hp1 : (1 : K) ≤ p := by exact_mod_cast hp
  have hpos : (0 : K) < p := by linarith
  refine hf.smooth (q := ((p : K) - 1) / p) (c := 1 / p) p (div_nonneg (by linarith) hpos.le)
    ((div_lt_one hpos).mpr (by linarith)) (by positivity) (le_of_eq (by field_simp; ring)) (fun B => ?_)
    fun x a v hv ha i hi => ?_
  · obtain ⟨C, hC⟩ := hf.bound B
    refine ⟨C, fun x hx => ?_⟩
    obtain ⟨v, ev, hv⟩ := hC x hx
    have hC0 : 0 ≤ C := (abs_nonneg _).trans (hv 0)
    refine ⟨fun i => (rmaK p v i).2, by funext i; rw [ev, rmaF_fin hp], fun i => ?_⟩
    have key : (i < p → |(rmaK p v i).1| ≤ i * C) ∧ |(rmaK p v i).2| ≤ C := by
      induction i with
      | zero => simpa [rmaK] using hC0
      | succ i ih =>
        have h1 := hv (i + 1)
        have hi0 : (0 : K) ≤ i := Nat.cast_nonneg i
        rw [rmaK]
        split
        · rename_i h
          have hs : |(rmaK p v i).1 + v (i + 1)| ≤ ((i + 1 : Nat) : K) * C := by
            refine (abs_add_le _ _).trans ?_
            have := ih.1 (by omega)
            push_cast
            linarith
          refine ⟨fun _ => hs, ?_⟩
          show |((rmaK p v i).1 + v (i + 1)) / ((i : K) + 2)| ≤ C
          rw [abs_div, abs_of_nonneg (show (0 : K) ≤ i + 2 by linarith), div_le_iff₀ (by linarith)]
          push_cast at hs
          linarith
        · refine ⟨fun h => by omega, ?_⟩
          show |((rmaK p v i).2 * ((p : K) - 1) + v (i + 1)) / p| ≤ C
          rw [abs_div, abs_of_pos hpos, div_le_iff₀ hpos]
          refine (abs_add_le _ _).trans ?_
          rw [abs_mul, abs_of_nonneg (show (0 : K) ≤ p - 1 by linarith)]
          have h2 := mul_le_mul_of_nonneg_right ih.2 (show (0 : K) ≤ p - 1 by linarith)
          linarith
    exact key.2
  · obtain rfl : (fun i => (rmaK p v i).2) = a := finF_inj (by rw [← ha, hv]; funext j; rw [rmaF_fin hp])
    show (rmaK p v (i + 1)).2 = _
    rw [rmaK, if_neg (by omega)]
    simp only
    field_simp

end archimedean

theorem Fade.column (f : Candle (XF K) → XF K) (g : Bar K → K)
    (h : ∀ n x b, Cols n x b → (fun i => f (x i)) = finF fun i => g (b i))
    (hg : ∀ B (b : Bar K), |b.o| ≤ B ∧ |b.h| ≤ B ∧ |b.l| ≤ B ∧ |b.c| ≤ B ∧ |b.v| ≤ B → |g b| ≤ B) :
    Fade fun x i => f (x i) :=
  Fade.of_local (w := 0) (Local.point f) fun B => ⟨B, fun x ⟨n, b, hC, hb⟩ =>
    ⟨_, h n x b hC, fun i => hg B (b i) (hb i)⟩⟩

theorem Fade.close : Fade (K := K) fun x i => cl x i :=
  Fade.column (·.close) Bar.c (fun _ _ _ h => h.cl) fun _ _ h => h.2.2.2.1

theorem Fade.high : Fade (K := K) fun x i => hi x i :=
  Fade.column (·.high) Bar.h (fun _ _ _ h => h.hi) fun _ _ h => h.2.1

theorem Fade.low : Fade (K := K) fun x i => lo x i :=
  Fade.column (·.low) Bar.l (fun _ _ _ h => h.lo) fun _ _ h => h.2.2.1

theorem within_bdd {B : K} {it : Item (XF K)} (h : Within B it) :
    ∃ x, it.candles = tab it.candles.length x ∧ BddCols |B| x := by
  obtain ⟨bs, hb, hB⟩ := h
  obtain ⟨x, b, hx, hbs, hC, h0⟩ := hb.cols₀
  have hl : it.candles.length = bs.length := by rw [hx, tab_length]
  refine ⟨x, by rw [hl]; exact hx, _, b, hC, fun i => ?_⟩
  by_cases hi : i < bs.length
  · obtain ⟨h1, h2, h3, h4, h5⟩ := hB (b i) (by rw [hbs]; exact mem_tab.mpr ⟨i, hi, rfl⟩)
    have := le_abs_self B
    exact ⟨h1.trans this, h2.trans this, h3.trans this, h4.trans this, h5.trans this⟩
  · rw [h0 i (by omega)]
    simp

theorem fades_of {I : Indicator (XF K)} {ok} {G} (hy : Yields I ok G) {val : I.D → XF K}
    (hF : Fade fun x i => val (G x i)) : Fades I val := by
  intro B ε hε
  obtain ⟨w, hw⟩ := hF.fade |B| ε hε
  obtain ⟨C, hC⟩ := hF.bound |B|
  refine ⟨w, fun it it' k k' d d' hi hi' ht hd hd' j r r' hj hr hr' => ?_⟩
  obtain ⟨x, hx, px⟩ := within_bdd hi
  obtain ⟨x', hx', px'⟩ := within_bdd hi'
  obtain ⟨a, ea, -⟩ := hC x px
  obtain ⟨a', ea', -⟩ := hC x' px'
  obtain ⟨-, rfl⟩ := yields_inv hy hx hd
  obtain ⟨-, rfl⟩ := yields_inv hy hx' hd'
  have h1 := (List.getElem?_eq_some_iff.mp hr).1
  have h2 := (List.getElem?_eq_some_iff.mp hr').1
  rw [tab_length] at h1 h2
  rw [tab_getElem?_lt h1] at hr
  rw [tab_getElem?_lt h2] at hr'
  refine ⟨a (k + j), a' (k' + j), by rw [← Option.some.inj hr]; exact congrFun ea _,
    by rw [← Option.some.inj hr']; exact congrFun ea' _,
    hw x x' a a' px px' ea ea' _ _ (by omega) (by omega) fun l hl => ?_⟩
  have h := congrArg (fun l' => l'[j - l]?) ht
  simp only [List.getElem?_drop] at h
  rw [hx, hx', tab_getElem?_lt (by omega), tab_getElem?_lt (by omega)] at h
  rw [show k + j - l = k + (j - l) by omega, show k' + j - l = k' + (j - l) by omega]
  exact Option.some.inj h

theorem Fade.scale {f : (Nat → Candle (XF K)) → Nat → XF K} (hf : Fade f) (op : XF K → XF K) (L : K) (hL : 0 < |L|)
    (hop : ∀ a : K, op (.fin a) = .fin (L * a)) : Fade fun x i => op (f x i) := by
  refine ⟨fun B => ?_, fun B ε hε => ?_⟩
  · obtain ⟨C, hC⟩ := hf.bound B
    refine ⟨|L| * C, fun x hx => ?_⟩
    obtain ⟨a, ea, ha⟩ := hC x hx
    refine ⟨fun i => L * a i, by funext i; rw [ea]; exact hop _, fun i => ?_⟩
    rw [abs_mul]
    exact mul_le_mul_of_nonneg_left (ha i) (abs_nonneg _)
  · obtain ⟨w, hw⟩ := hf.fade B (ε / |L|) (by positivity)
    obtain ⟨C, hC⟩ := hf.bound B
    refine ⟨w, fun x x' c c' hx hx' hc hc' i i' hi hi' hj => ?_⟩
    obtain ⟨a, ea, -⟩ := hC x hx
    obtain ⟨a', ea', -⟩ := hC x' hx'
    have h1 := hw x x' a a' hx hx' ea ea' i i' hi hi' hj
    have e := congrFun hc i
    have e' := congrFun hc' i'
    simp only [ea, ea', finF, hop] at e e'
    rw [← fin_inj.mp e, ← fin_inj.mp e', ← mul_sub, abs_mul]
    rwa [le_div_iff₀' hL] at h1

/-- The true range as `Atr` computes it. -/
theorem Fade.tr : Fade (K := K) trI := by
  have hl : Local (FinCols (K := K)) 1 trI :=
    Local.late (Local.two fun c c' => GoFloat.max (c.high -. c.low) (GoFloat.max (c.high -. c'.close) (c.low -. c'.close)))
      fun x _ i hi => by simp only [trI, if_neg (show ¬ i = 0 by omega)]; rfl
  refine Fade.of_local hl fun B => ⟨2 * B, fun x ⟨n, b, hC, hb⟩ => ⟨_, trI_fin hC, fun i => ?_⟩⟩
  obtain ⟨-, h2, h3, h4, -⟩ := hb i
  have h5 : |if i = 0 then (0 : K) else (b (i - 1)).c| ≤ B := by
    split
    · rw [abs_zero]; exact (abs_nonneg _).trans h2
    · exact (hb (i - 1)).2.2.2.1
  have key : ∀ u v : K, |u| ≤ B → |v| ≤ B → |u - v| ≤ 2 * B := fun u v hu hv => by
    have := abs_sub u v; linarith
  refine abs_max_le_max_abs_abs.trans (max_le (key _ _ h2 h3) (abs_max_le_max_abs_abs.trans (max_le (key _ _ h2 h5) (key _ _ h3 h5))))

theorem Fade.force : Fade (K := K) fun x j => subF (cl x j) (shiftF 1 (fl 0) (cl x) j) *. vo x j := by
  have hc : Local (FinCols (K := K)) 0 (fun x i => cl x i) := Local.point _
  have hl : Local (FinCols (K := K)) 1 (fun x j => subF (cl x j) (shiftF 1 (fl 0) (cl x) j) *. vo x j) :=
    Local.map₂ (· *. ·) (Local.sub (hc.mono (Nat.zero_le _)) (Local.shift1 hc)) (Local.point _)
  refine Fade.of_local hl fun B => ⟨2 * B * B, fun x ⟨n, b, hC, hb⟩ =>
    ⟨fun i => ((b i).c - if i < 1 then 0 else (b (i - 1)).c) * (b i).v, ?_, fun i => ?_⟩⟩
  · funext i
    have e : shiftF 1 (fl 0) (cl x) i = .fin (if i < 1 then 0 else (b (i - 1)).c) := by
      rw [shiftF, hC.cl, fl_fin, Int.cast_zero]; split <;> rfl
    rw [e, hC.cl, hC.vo, subF_fin, mul_fin]
  · obtain ⟨-, -, -, h4, h5⟩ := hb i
    have h6 : |if i < 1 then (0 : K) else (b (i - 1)).c| ≤ B := by
      split
      · rw [abs_zero]; exact (abs_nonneg _).trans h4
      · exact (hb (i - 1)).2.2.2.1
    rw [abs_mul]
    refine mul_le_mul ?_ h5 (abs_nonneg _) (by have := (abs_nonneg _).trans h4; linarith)
    have := abs_sub (b i).c (if i < 1 then (0 : K) else (b (i - 1)).c)
    linarith

theorem lowF_congr {y y' : Nat → XF K} {s s' : Nat} : ∀ m, (∀ j ≤ m, y (s + j) = y' (s' + j)) → lowF y s m = lowF y' s' m
  | 0, h => h 0 (le_refl _)
  | m + 1, h => by rw [lowF, lowF, lowF_congr m fun j hj => h j (by omega), h (m + 1) (le_refl _)]

theorem highF_congr {y y' : Nat → XF K} {s s' : Nat} :
    ∀ m, (∀ j ≤ m, y (s + j) = y' (s' + j)) → highF y s m = highF y' s' m
  | 0, h => h 0 (le_refl _)
  | m + 1, h => by rw [highF, highF, highF_congr m fun j hj => h j (by omega), h (m + 1) (le_refl _)]

theorem Fade.rsv {p : Nat} (hp : 0 < p) : Fade (K := K) fun x i => rsvF p x i := by
  have hl : Local (FinCols (K := K)) (p - 1) (fun x i => rsvF p x i) := by
    intro x x' _ _ i i' hi hi' hj
    have hf : ∀ i : Nat, p - 1 ≤ i → kdjFull p i = true := fun i h => by unfold kdjFull; simp; omega
    have h := window_congr hi hi' hj
    have h0 : x i = x' i' := by simpa using hj 0 (Nat.zero_le _)
    have e1 : lowF (lo x) (i + 1 - p) (p - 1) = lowF (lo x') (i' + 1 - p) (p - 1) :=
      lowF_congr _ fun j hj => congrArg Candle.low (h j (by omega))
    have e2 : highF (Ind.hi x) (i + 1 - p) (p - 1) = highF (Ind.hi x') (i' + 1 - p) (p - 1) :=
      highF_congr _ fun j hj => congrArg Candle.high (h j (by omega))
    show rsvF p x i = rsvF p x' i'
    rw [rsvF, rsvF, hf i hi, hf i' hi', if_pos rfl, if_pos rfl, Int.toNat_natCast, e1, e2]
    simp only [cl, h0]
  refine Fade.of_local hl fun B => ⟨100 + 200000000 * |B|, fun x ⟨n, b, hC, hb⟩ => ?_⟩
  have key : ∀ i, ∃ r, rsvF p x i = .fin r ∧ |r| ≤ 100 + 200000000 * |B| := fun i => by
    have hB := abs_nonneg B
    by_cases hf : p ≤ i + 1
    · obtain ⟨H, L, -, ⟨⟨l, -, -, hL⟩, -⟩, e⟩ := rsvF_fin hp hC hf
      refine ⟨_, e, ?_⟩
      split
      · rw [abs_of_nonneg (by norm_num)]; linarith
      · rename_i h
        have h1 : |(b i).c - L| ≤ 2 * |B| := by
          have := abs_sub (b i).c L
          have h2 := (hb i).2.2.2.1
          have h3 := (hb l).2.2.1
          rw [hL] at h3
          have := le_abs_self B
          linarith
        have h2 : (1 : K) / 1000000 ≤ H - L := not_lt.mp h
        have h3 : (0 : K) < H - L := lt_of_lt_of_le (by norm_num) h2
        rw [abs_mul, abs_div, abs_of_pos h3, abs_of_nonneg (show (0 : K) ≤ 100 by norm_num)]
        have : |(b i).c - L| / (H - L) ≤ 2 * |B| * 1000000 := by
          rw [div_le_iff₀ h3]
          have : 2 * |B| * 1000000 * (1 / 1000000) ≤ 2 * |B| * 1000000 * (H - L) :=
            mul_le_mul_of_nonneg_left h2 (by positivity)
          linarith
        linarith
    · have hf' : kdjFull p i = false := by unfold kdjFull; simp; omega
      exact ⟨0, by rw [rsvF, hf']; simp, by rw [abs_zero]; positivity⟩
  exact ⟨fun i => (key i).choose, funext fun i => (key i).choose_spec.1, fun i => (key i).choose_spec.2⟩

/-- Smoothing by thirds from 50, once the window is full. -/
def thirds (p : Nat) (v : Nat → K) : Nat → K
  | 0 => 50
  | i + 1 => if p ≤ i + 2 then 2 / 3 * thirds p v i + 1 / 3 * v (i + 1) else 50

theorem kdj_full {p : Nat} (hp : 0 < p) (i : Nat) : (kdjFull p (i + 1) = true) ↔ p ≤ i + 2 := by
  unfold kdjFull; simp; omega

theorem thirds_fin {p : Nat} (hp : 0 < p) {g : Nat → XF K} {v : Nat → K} (h0 : g 0 = fl 50)
    (h : ∀ i, g (i + 1) = if kdjFull p (i + 1) then twoThirds *. g i +. oneThird *. .fin (v (i + 1)) else fl 50) :
    g = finF (thirds p v) := by
  have e50 : (fl 50 : XF K) = .fin 50 := by simp
  have e23 : (twoThirds : XF K) = .fin (2 / 3) := by rw [twoThirds, lit_fin]; push_cast; rfl
  have e13 : (oneThird : XF K) = .fin (1 / 3) := by rw [oneThird, lit_fin]; push_cast; rfl
  funext i
  induction i with
  | zero => rw [h0, e50]; rfl
  | succ i ih =>
    rw [h, ih, e23, e13, e50]
    simp only [kdj_full hp, finF, mul_fin, add_fin, thirds]
    split <;> rfl

theorem Fade.thirds [Archimedean K] {p : Nat} {f g : (Nat → Candle (XF K)) → Nat → XF K} (hf : Fade f)
    (hg : ∀ x v, f x = finF v → g x = finF (thirds p v)) : Fade g := by
  refine hf.smooth (q := 2 / 3) (c := 1 / 3) p (by norm_num) (by norm_num) (by norm_num) (by norm_num) (fun B => ?_)
    fun x a v hv ha i hi => ?_
  · obtain ⟨C, hC⟩ := hf.bound B
    refine ⟨50 + C, fun x hx => ?_⟩
    obtain ⟨v, ev, hv⟩ := hC x hx
    have hC0 : 0 ≤ C := (abs_nonneg _).trans (hv 0)
    refine ⟨_, hg x v ev, fun i => ?_⟩
    induction i with
    | zero => rw [Props.thirds, abs_of_nonneg (by norm_num)]; linarith
    | succ i ih =>
      rw [Props.thirds]
      split
      · refine (abs_add_le _ _).trans ?_
        rw [abs_mul, abs_mul, abs_of_nonneg (show (0 : K) ≤ 2 / 3 by norm_num), abs_of_nonneg (show (0 : K) ≤ 1 / 3 by norm_num)]
        have := hv (i + 1)
        linarith
      · rw [abs_of_nonneg (by norm_num)]; linarith
  · obtain rfl : Props.thirds p v = a := finF_inj (by rw [← ha, hg x v hv])
    rw [Props.thirds, if_pos (by omega)]

/-! ## C116 -/

section main
variable [Archimedean K]

/-- **C116**, the exponential averages and the lines that are averages or differences of them. -/
theorem C116_ema {p : Nat} (hp : 0 < p) : Fades (K := K) (EMA p) Rec.value ∧ Fades (K := K) (DEMA p) Rec.value ∧
    Fades (K := K) (Force p) Rec.value := by
  have h := (Fade.close (K := K)).ema hp
  refine ⟨fades_of (EMA.makes _).yields h, fades_of (DEMA.makes _).yields ?_,
    fades_of (Force.appends _).yields (Fade.force.ema hp)⟩
  exact (h.scale (fun a => a *. fl 2) 2 (by norm_num) fun a => by rw [fl_fin, mul_fin]; congr 1; push_cast; ring).sub (h.ema hp)

/-- **C116**, differences of exponential averages. -/
theorem C116_differences {a b c : Nat} (ha : 0 < a) (hb : 0 < b) (hc : 0 < c) :
    Fades (K := K) (APO a b).toIndicator Rec.value ∧ Fades (K := K) Awesome.toIndicator Rec.value ∧
    Fades (K := K) (MACD a c b).toIndicator MACD.Data.dif ∧ Fades (K := K) (MACD a c b).toIndicator MACD.Data.dea ∧
    Fades (K := K) (MACD a c b).toIndicator MACD.Data.macd := by
  have h : Fade (K := K) fun x i => difF a b x i := (Fade.close.ema ha).sub (Fade.close.ema hb)
  have hm : Fade (K := K) medF := Fade.low.map₂ Fade.high (fun u v => (u +. v) *. (fl 1 /. fl 2)) (1 / 2) (1 / 2)
    (by norm_num) (by norm_num) fun u v => by
      rw [fl_fin, fl_fin, div_fin (by norm_num), add_fin, mul_fin]; congr 1; push_cast; ring
  refine ⟨fades_of (APO.makes _ _).yields h, fades_of Awesome.appends.yields ((hm.ema (p := 5) (by norm_num)).sub
    (hm.ema (p := 34) (by norm_num))), fades_of (MACD.makes _ _ _).yields h, fades_of (MACD.makes _ _ _).yields (h.ema hc),
    fades_of (MACD.makes _ _ _).yields ?_⟩
  exact h.map₂ (h.ema hc) (fun u v => (u -. v) *. fl 2) 2 (-2) (by norm_num) (by norm_num) fun u v => by
    rw [fl_fin, sub_fin, mul_fin]; congr 1; push_cast; ring

/-- **C116**, the sets of exponential averages of EMAVegas and TraderXO. -/
theorem C116_sets {p s1 s2 l1 l2 : Nat} (hp : 0 < p) (h1 : 0 < s1) (h2 : 0 < s2) (h3 : 0 < l1) (h4 : 0 < l2) :
    Fades (K := K) (Vegas p s1 s2 l1 l2).toIndicator Vegas.Data.value ∧
    Fades (K := K) (Vegas p s1 s2 l1 l2).toIndicator Vegas.Data.short1 ∧
    Fades (K := K) (Vegas p s1 s2 l1 l2).toIndicator Vegas.Data.short2 ∧
    Fades (K := K) (Vegas p s1 s2 l1 l2).toIndicator Vegas.Data.long1 ∧
    Fades (K := K) (Vegas p s1 s2 l1 l2).toIndicator Vegas.Data.long2 ∧
    Fades (K := K) (XO p s1).toIndicator XO.Data.fast ∧ Fades (K := K) (XO p s1).toIndicator XO.Data.slow :=
  ⟨fades_of (Vegas.makes _ _ _ _ _).yields (Fade.close.ema hp), fades_of (Vegas.makes _ _ _ _ _).yields (Fade.close.ema h1),
    fades_of (Vegas.makes _ _ _ _ _).yields (Fade.close.ema h2), fades_of (Vegas.makes _ _ _ _ _).yields (Fade.close.ema h3),
    fades_of (Vegas.makes _ _ _ _ _).yields (Fade.close.ema h4), fades_of (XO.makes _ _).yields (Fade.close.ema hp),
    fades_of (XO.makes _ _).yields (Fade.close.ema h1)⟩

/-- **C116**, the average true range and the Keltner channel. -/
theorem C116_atr {p : Nat} (hp : 0 < p) : Fades (K := K) (ATR p) ATR.Data.tr ∧ Fades (K := K) (ATR p) ATR.Data.atr ∧
    Fades (K := K) (Keltner p).toIndicator Band.upper ∧ Fades (K := K) (Keltner p).toIndicator Band.middle ∧
    Fades (K := K) (Keltner p).toIndicator Band.lower := by
  have ht := (Fade.tr (K := K)).rma hp
  have he := (Fade.close (K := K)).ema hp
  have ht2 := ht.scale (fun a => a *. fl 2) 2 (by norm_num) fun a => by rw [fl_fin, mul_fin]; congr 1; push_cast; ring
  refine ⟨fades_of (ATR.makes _).yields Fade.tr, fades_of (ATR.makes _).yields ht,
    fades_of (Keltner.appends _).yields ?_, fades_of (Keltner.appends _).yields he,
    fades_of (Keltner.appends _).yields (he.sub ht2)⟩
  exact he.map₂ ht2 (· +. ·) 1 1 (by norm_num) (by norm_num) fun a b => by rw [add_fin]; congr 1; ring

/-- **C116**, the Kdj lines. -/
theorem C116_kdj {p : Nat} (hp : 0 < p) : Fades (K := K) (KDJ p).toIndicator KDJ.Data.rsv ∧
    Fades (K := K) (KDJ p).toIndicator KDJ.Data.k ∧ Fades (K := K) (KDJ p).toIndicator KDJ.Data.d ∧
    Fades (K := K) (KDJ p).toIndicator KDJ.Data.j := by
  have hr := Fade.rsv (K := K) hp
  have hk : Fade (K := K) fun x i => kF p x i := hr.thirds (p := p) fun x v hv => thirds_fin hp rfl fun i => by
    rw [kF]; rw [show rsvF p x (i + 1) = .fin (v (i + 1)) from congrFun hv (i + 1)]
  have hd : Fade (K := K) fun x i => dF p x i := hk.thirds (p := p) fun x v hv => thirds_fin hp rfl fun i => by
    rw [dF]; rw [show kF p x (i + 1) = .fin (v (i + 1)) from congrFun hv (i + 1)]
  refine ⟨fades_of (KDJ.makes _).yields hr, fades_of (KDJ.makes _).yields hk, fades_of (KDJ.makes _).yields hd,
    fades_of (KDJ.makes _).yields ?_⟩
  exact hk.map₂ hd (fun u v => fl 3 *. u -. fl 2 *. v) 3 (-2) (by norm_num) (by norm_num) fun u v => by
    rw [fl_fin, fl_fin, mul_fin, mul_fin, sub_fin]; congr 1; push_cast; ring

end main

/-! ## How fast, and what never fades -/

theorem emaK_apart {p : Nat} {a a' : Nat → K} {k k' : Nat} :
    ∀ j, (∀ l < j, a (k + l + 1) = a' (k' + l + 1)) →
      emaK p a (k + j) - emaK p a' (k' + j) = (((p : K) - 1) / (p + 1)) ^ j * (emaK p a k - emaK p a' k')
  | 0, _ => by simp
  | j + 1, h => by
    have ih := emaK_apart (p := p) (a := a) (a' := a') (k := k) (k' := k') j fun l hl => h l (by omega)
    have hp : ((p : K) + 1) ≠ 0 := by positivity
    rw [← Nat.add_assoc, ← Nat.add_assoc, emaK, emaK, h j (by omega), pow_succ, mul_assoc, mul_left_comm,
      ← ih, ← sub_div, div_mul_eq_mul_div]
    congr 1
    ring

/-- Elements after a place, of series that are the same from there on. -/
theorem SameTail.at {it it' : Item (XF K)} {k k' : Nat} (ht : SameTail it it' k k') {x x' : Nat → Candle (XF K)}
    (hx : it.candles = tab it.candles.length x) (hx' : it'.candles = tab it'.candles.length x') {j : Nat}
    (h : k + j < it.candles.length) (h' : k' + j < it'.candles.length) : x (k + j) = x' (k' + j) := by
  have e := congrArg (fun l' => l'[j]?) ht
  simp only [List.getElem?_drop] at e
  rw [hx, hx', tab_getElem?_lt h, tab_getElem?_lt h'] at e
  exact Option.some.inj e

/-- **C116**, how fast: `j` candles into the common tail the difference of two exponential averages is exactly
`((p - 1) / (p + 1)) ^ j` times the difference before the tail. -/
theorem C116_ema_rate {p k k' j : Nat} {it it' : Item (XF K)} (hn : Numeric it) (hn' : Numeric it')
    (ht : SameTail it it' (k + 1) (k' + 1)) {d d' : List (Rec (XF K))} (hd : (EMA p).data it = .ok d)
    (hd' : (EMA p).data it' = .ok d') {r r' s s' : Rec (XF K)} (hr : d[k]? = some r) (hr' : d'[k']? = some r')
    (hs : d[k + j]? = some s) (hs' : d'[k' + j]? = some s') :
    ∃ a a' b b', r.value = .fin a ∧ r'.value = .fin a' ∧ s.value = .fin b ∧ s'.value = .fin b' ∧
      b - b' = (((p : K) - 1) / (p + 1)) ^ j * (a - a') := by
  obtain ⟨x, hx, n, b, hC⟩ := hn.seq
  obtain ⟨x', hx', n', b', hC'⟩ := hn'.seq
  obtain ⟨-, rfl⟩ := yields_inv (EMA.makes _).yields hx hd
  obtain ⟨-, rfl⟩ := yields_inv (EMA.makes _).yields hx' hd'
  have h1 := (List.getElem?_eq_some_iff.mp hs).1
  have h2 := (List.getElem?_eq_some_iff.mp hs').1
  rw [tab_length] at h1 h2
  rw [tab_getElem?_lt (by omega)] at hr hr' hs hs'
  rw [← Option.some.inj hr, ← Option.some.inj hr', ← Option.some.inj hs, ← Option.some.inj hs']
  simp only [EMA.out, hC.cl, hC'.cl, emaF_fin]
  refine ⟨_, _, _, _, rfl, rfl, rfl, rfl, emaK_apart j fun l hl => ?_⟩
  have e := ht.at hx hx' (j := l) (by omega) (by omega)
  have e1 := congrFun hC.cl (k + l + 1)
  have e2 := congrFun hC'.cl (k' + l + 1)
  simp only [Ind.cl, show k + l + 1 = k + 1 + l by omega, show k' + l + 1 = k' + 1 + l by omega, finF] at e1 e2
  rw [e, e2] at e1
  simp only [show k + l + 1 = k + 1 + l by omega, show k' + l + 1 = k' + 1 + l by omega]
  exact (fin_inj.mp e1).symm

theorem flat_tab (c h : K) (n : Nat) : (barItem (flatBars (c :: List.replicate n h))).candles =
    tab (n + 1) fun j => candleOf 0 (if j = 0 then c else h) (if j = 0 then c else h) (if j = 0 then c else h)
      (if j = 0 then c else h) 0 := by
  refine eq_tab_of_forall (by simp [barItem, flatBars]) fun i hi => ?_
  rcases i with _ | i
  · simp [barItem, flatBars]
  · simp only [barItem, flatBars, List.map_cons, List.getElem?_cons_succ, List.map_replicate, if_neg (Nat.succ_ne_zero i)]
    rw [List.getElem?_replicate, if_pos (by omega)]

/-- C116: an exponential average of two or more candles never forgets completely, however long the common tail. -/
theorem C116_ema_never {p : Nat} (hp : 2 ≤ p) (w : Nat) : ¬ Forgets (EMA p) (Numeric (K := K)) w := by
  intro h
  have t0 := flat_tab (0 : K) 0 (w + 1)
  have t1 := flat_tab (1 : K) 0 (w + 1)
  have d0 := ((EMA.makes (F := XF K) p).yields _ _ _ t0).1 trivial
  have d1 := ((EMA.makes (F := XF K) p).yields _ _ _ t1).1 trivial
  have e := congrArg (fun l => l[0]?) (h _ _ 1 1 _ _ ⟨_, holds_barItem _⟩ ⟨_, holds_barItem _⟩
    (by simp [SameTail, barItem, flatBars]) d0 d1)
  simp only [List.getElem?_drop] at e
  rw [tab_getElem?_lt (by omega), tab_getElem?_lt (by omega)] at e
  obtain ⟨a, a', b, b', h1, h2, h3, h4, h5⟩ := C116_ema_rate (k := 0) (k' := 0) (j := w + 1) ⟨_, holds_barItem _⟩
    ⟨_, holds_barItem _⟩ (by simp [SameTail, barItem, flatBars]) d0 d1 (tab_getElem?_lt (by omega))
    (tab_getElem?_lt (by omega)) (tab_getElem?_lt (by omega)) (tab_getElem?_lt (by omega))
  have e' := congrArg Rec.value (Option.some.inj e)
  rw [show 1 + w + 0 = 0 + (w + 1) by omega, h3, h4] at e'
  have ha : a = 0 := (fin_inj.mp h1).symm
  have ha' : a' = 1 := (fin_inj.mp h2).symm
  rw [fin_inj.mp e', sub_self, ha, ha'] at h5
  have hp1 : (2 : K) ≤ p := by exact_mod_cast hp
  have : (0 : K) < (((p : K) - 1) / (p + 1)) ^ (w + 1) := by
    have : (0 : K) < p - 1 := by linarith
    positivity
  linarith

theorem wilder_once {p : Nat} (hp : 1 ≤ p) {g : Nat → K} (h : ∀ j, 2 ≤ j → g j = 0) :
    ∀ m, wilderAvg p g m = g 1 / p * (((p : K) - 1) / p) ^ m
  | 0 => by
    obtain ⟨q, rfl⟩ : ∃ q, p = q + 1 := ⟨p - 1, by omega⟩
    rw [wilderAvg, Finset.sum_range_succ', Finset.sum_eq_zero fun j _ => h (j + 1 + 1) (by omega)]
    simp
  | m + 1 => by
    have hp' : (p : K) ≠ 0 := natCast_ne hp
    rw [wilderAvg, wilder_once hp h m, h (p + m + 1) (by omega), pow_succ]
    field_simp
    ring

theorem rsi_flat {p : Nat} (hp : 2 ≤ p) {x : Nat → XF K} {c h : K} (hx : x = finF fun j => if j = 0 then c else h) (i : Nat)
    (hi : p ≤ i) (hbig : 1 / 100000000000000 ≤ |h - c| / p * (((p : K) - 1) / p) ^ (i - p)) :
    rsiF p x i = .fin (if c < h then 100 else 0) := by
  rw [rsiF, if_neg (by omega), hx, rsiW_fin (by omega)]
  have hp1 : (2 : K) ≤ p := by exact_mod_cast hp
  have hq : (0 : K) < (((p : K) - 1) / p) ^ (i - p) := by
    have h1 : (0 : K) < p - 1 := by linarith
    have h2 : (0 : K) < p := by linarith
    positivity
  have hz : ∀ j, 2 ≤ j → (if j = 0 then c else h) - (if j - 1 = 0 then c else h) = 0 := fun j hj => by
    rw [if_neg (by omega), if_neg (by omega), sub_self]
  have e1 := wilder_once (p := p) (by omega) (g := fun j => Max.max ((if j = 0 then c else h) - (if j - 1 = 0 then c else h)) 0)
    (fun j hj => by simp only [hz j hj, max_self]) (i - p)
  have e2 := wilder_once (p := p) (by omega) (g := fun j => Max.max ((if j - 1 = 0 then c else h) - (if j = 0 then c else h)) 0)
    (fun j hj => by
      have := hz j hj
      rw [show (if j - 1 = 0 then c else h) - (if j = 0 then c else h) = 0 by linarith, max_self]) (i - p)
  rw [e1, e2]
  simp only [if_neg (show ¬ (1 : Nat) = 0 by omega), Nat.sub_self, if_true]
  have hpp : (0 : K) < p := by linarith
  have n1 : 0 ≤ Max.max (h - c) 0 / p * (((p : K) - 1) / p) ^ (i - p) := by positivity
  have n2 : 0 ≤ Max.max (c - h) 0 / p * (((p : K) - 1) / p) ^ (i - p) := by positivity
  rw [rsiVal_fin n1 n2]
  by_cases hc : c < h
  · have m1 : Max.max (c - h) 0 = 0 := max_eq_right (by linarith)
    have m2 : Max.max (h - c) 0 = h - c := max_eq_left (by linarith)
    rw [abs_of_pos (by linarith)] at hbig
    rw [m1, m2, if_pos hc, zero_div, zero_mul, add_zero, if_neg (not_lt.mpr hbig), div_self, mul_one]
    have : (0 : K) < 1 / 100000000000000 := by norm_num
    exact (lt_of_lt_of_le this hbig).ne'
  · have m1 : Max.max (h - c) 0 = 0 := max_eq_right (by linarith)
    rw [m1, if_neg hc, zero_div, zero_mul, zero_div, mul_zero, ite_self]

/-- C116 refuted for `Rsi`: for every number of candles there are two series that agree on that many candles at the end,
and the index of the one is 100 at the end, of the other 0. -/
theorem C116_rsi_refuted {p : Nat} (hp : 2 ≤ p) (w : Nat) : ∃ (it it' : Item (XF K)) (d d' : List (Rec (XF K)))
    (r r' : Rec (XF K)), Numeric it ∧ Numeric it' ∧ SameTail it it' 1 1 ∧ w < it.candles.length ∧
    it'.candles.length = it.candles.length ∧ (RSI p).data it = .ok d ∧ (RSI p).data it' = .ok d' ∧
    d.getLast? = some r ∧ d'.getLast? = some r' ∧ r.value = .fin 100 ∧ r'.value = .fin 0 := by
  have hp1 : (2 : K) ≤ p := by exact_mod_cast hp
  have hpp : (0 : K) < p := by linarith
  have hq : (0 : K) < (((p : K) - 1) / p) ^ w := by
    have h1 : (0 : K) < p - 1 := by linarith
    positivity
  set h : K := p / (((p : K) - 1) / p) ^ w with hh
  have hpos : 0 < h := by positivity
  have hbig : (1 : K) / 100000000000000 ≤ h / p * (((p : K) - 1) / p) ^ (p + w - p) := by
    rw [show p + w - p = w by omega, hh, show (p : K) / (((p : K) - 1) / p) ^ w / p * (((p : K) - 1) / p) ^ w = 1 by
      field_simp]
    norm_num
  have key : ∀ c, |h - c| = h → ∃ d r, (RSI p).data (barItem (flatBars (c :: List.replicate (p + w) h))) = .ok d ∧
      d.getLast? = some r ∧ r.value = .fin (if c < h then 100 else 0) := fun c hc => by
    have hd := ((RSI.appends (F := XF K) p).yields _ _ _ (flat_tab c h (p + w))).1 (by right; omega)
    refine ⟨_, RSI.out p (fun j => candleOf 0 (if j = 0 then c else h) (if j = 0 then c else h)
      (if j = 0 then c else h) (if j = 0 then c else h) 0) (p + w), hd, ?_, ?_⟩
    · rw [List.getLast?_eq_getElem?, tab_length, tab_getElem?_lt (by omega)]
      rfl
    · exact rsi_flat hp rfl (p + w) (by omega) (by rw [hc]; exact hbig)
  obtain ⟨d, r, h1, h2, h3⟩ := key 0 (by rw [sub_zero, abs_of_pos hpos])
  obtain ⟨d', r', h1', h2', h3'⟩ := key (2 * h) (by rw [show h - 2 * h = -h by ring, abs_neg, abs_of_pos hpos])
  exact ⟨_, _, d, d', r, r', ⟨_, holds_barItem _⟩, ⟨_, holds_barItem _⟩, by simp [SameTail, barItem, flatBars],
    by simp [barItem, flatBars], by simp [barItem, flatBars], h1, h1', h2, h2', by rw [h3, if_pos hpos],
    by rw [h3', if_neg (by linarith)]⟩

theorem SameTail.bars {it it' : Item (XF K)} {k k' : Nat} (ht : SameTail it it' k k') {bs bs' : List (Bar K)}
    (hb : Holds it bs) (hb' : Holds it' bs') : bs.drop k = bs'.drop k' := by
  have inj : Function.Injective fun b : Bar K =>
      ((XF.fin b.o, XF.fin b.h, XF.fin b.l, XF.fin b.c, XF.fin b.v) : XF K × XF K × XF K × XF K × XF K) := by
    rintro ⟨_, _, _, _, _⟩ ⟨_, _, _, _, _⟩ h
    simpa using h
  refine List.map_injective_iff.mpr inj ?_
  have e := hb
  have e' := hb'
  unfold Holds at e e'
  rw [List.map_drop, List.map_drop, ← e, ← e', ← List.map_drop, ← List.map_drop, ht]

theorem SameTail.col {it it' : Item (XF K)} {k k' : Nat} (ht : SameTail it it' k k') {bs bs' : List (Bar K)}
    (hb : Holds it bs) (hb' : Holds it' bs') (f : Bar K → K) (j : Nat) : col f bs (k + j) = col f bs' (k' + j) := by
  have h := congrArg (fun l => l[j]?) (ht.bars hb hb')
  simp only [List.getElem?_drop] at h
  simp only [Props.col, h]

/-- **C116**, what never fades: the difference of two on-balance volumes, and of two accumulation lines, stays what it was
at the first common candle; the ratio of two negative volume indexes too. -/
theorem C116_cumulative {k k' j : Nat} {it it' : Item (XF K)} {bs bs' : List (Bar K)} (hb : Holds it bs) (hb' : Holds it' bs')
    (ht : SameTail it it' k k') :
    (∀ (d d' : List (Rec (XF K))) (r r' s s' : Rec (XF K)), OBV.data it = .ok d → OBV.data it' = .ok d' → d[k]? = some r →
      d'[k']? = some r' → d[k + j]? = some s → d'[k' + j]? = some s' →
      ∃ a a' b b', r.value = .fin a ∧ r'.value = .fin a' ∧ s.value = .fin b ∧ s'.value = .fin b' ∧ b - b' = a - a') ∧
    ((∀ b ∈ bs ++ bs', b.l ≤ b.c ∧ b.c ≤ b.h) →
      ∀ (d d' : List (Rec (XF K))) (r r' s s' : Rec (XF K)), AD.data it = .ok d → AD.data it' = .ok d' → d[k]? = some r →
      d'[k']? = some r' → d[k + j]? = some s → d'[k' + j]? = some s' →
      ∃ a a' b b', r.value = .fin a ∧ r'.value = .fin a' ∧ s.value = .fin b ∧ s'.value = .fin b' ∧ b - b' = a - a') ∧
    ((∀ b ∈ bs ++ bs', b.c ≠ 0) →
      ∀ (d d' : List (Rec (XF K))) (r r' s s' : Rec (XF K)), NVI.data it = .ok d → NVI.data it' = .ok d' → d[k]? = some r →
      d'[k']? = some r' → d[k + j]? = some s → d'[k' + j]? = some s' →
      ∃ a a' b b', r.value = .fin a ∧ r'.value = .fin a' ∧ s.value = .fin b ∧ s'.value = .fin b' ∧
        a ≠ 0 ∧ a' ≠ 0 ∧ b / a = b' / a') := by
  have hcol := ht.col hb hb'
  refine ⟨fun d d' r r' s s' hd hd' hr hr' hs hs' => ?_, fun hw d d' r r' s s' hd hd' hr hr' hs hs' => ?_,
    fun hz d d' r r' s s' hd hd' hr hr' hs hs' => ?_⟩
  · refine ⟨_, _, _, _, C50_obv_sum hb hd hr, C50_obv_sum hb' hd' hr', C50_obv_sum hb hd hs, C50_obv_sum hb' hd' hs', ?_⟩
    clear hr hr' hs hs'
    induction j with
    | zero => rfl
    | succ j ih =>
      have e : signedVolume bs (k + j + 1) = signedVolume bs' (k' + j + 1) := by
        simp only [signedVolume, Nat.add_sub_cancel]
        simp only [Nat.add_assoc, hcol]
      rw [← Nat.add_assoc, ← Nat.add_assoc, Finset.sum_Ico_succ_top (by omega : 1 ≤ k + j + 1),
        Finset.sum_Ico_succ_top (by omega : 1 ≤ k' + j + 1), e, ← ih]
      ring
  · refine ⟨_, _, _, _, C80_accumulation_distribution hb (fun b h => hw b (by simp [h])) hd hr,
      C80_accumulation_distribution hb' (fun b h => hw b (by simp [h])) hd' hr',
      C80_accumulation_distribution hb (fun b h => hw b (by simp [h])) hd hs,
      C80_accumulation_distribution hb' (fun b h => hw b (by simp [h])) hd' hs', ?_⟩
    clear hr hr' hs hs'
    induction j with
    | zero => rfl
    | succ j ih =>
      have e : col Bar.v bs (k + j + 1) * closeLocation bs (k + j + 1) =
          col Bar.v bs' (k' + j + 1) * closeLocation bs' (k' + j + 1) := by
        simp only [closeLocation, Nat.add_assoc, hcol]
      rw [← Nat.add_assoc, ← Nat.add_assoc, Finset.sum_range_succ _ (k + j + 1), Finset.sum_range_succ _ (k' + j + 1), e, ← ih]
      ring
  · have hne : ∀ (bs : List (Bar K)) (n : Nat), (∀ b ∈ bs, b.c ≠ 0) → n < bs.length →
        (1000 * ∏ j ∈ Finset.range n, if col Bar.v bs j < col Bar.v bs (j + 1) then 1
          else col Bar.c bs (j + 1) / col Bar.c bs j) ≠ 0 := fun bs n hz hn => by
      refine mul_ne_zero (by norm_num) (Finset.prod_ne_zero_iff.mpr fun j hj => ?_)
      have hc : ∀ l < bs.length, col Bar.c bs l ≠ 0 := fun l hl => by
        rw [col, List.getElem?_eq_getElem hl]; exact hz _ (List.getElem_mem hl)
      split
      · exact one_ne_zero
      · exact div_ne_zero (hc _ (by have := Finset.mem_range.mp hj; omega)) (hc _ (by have := Finset.mem_range.mp hj; omega))
    have hlen : ∀ {it : Item (XF K)} {bs : List (Bar K)} {d : List (Rec (XF K))} {i : Nat} {r}, Holds it bs →
        NVI.data it = .ok d → d[i]? = some r → i < bs.length := fun hb hd hr => by
      obtain ⟨x, b, hx, hbs, hc⟩ := hb.cols
      exact (at_index (b := b) NVI.appends.yields hx hd hr).1
    refine ⟨_, _, _, _, C80_negative_volume hb (fun b h => hz b (by simp [h])) hd hr,
      C80_negative_volume hb' (fun b h => hz b (by simp [h])) hd' hr',
      C80_negative_volume hb (fun b h => hz b (by simp [h])) hd hs,
      C80_negative_volume hb' (fun b h => hz b (by simp [h])) hd' hs',
      hne bs k (fun b h => hz b (by simp [h])) (hlen hb hd hr), hne bs' k' (fun b h => hz b (by simp [h])) (hlen hb' hd' hr'), ?_⟩
    have n1 := hne bs k (fun b h => hz b (by simp [h])) (hlen hb hd hr)
    have n2 := hne bs' k' (fun b h => hz b (by simp [h])) (hlen hb' hd' hr')
    clear hr hr' hs hs'
    induction j with
    | zero => rw [Nat.add_zero, Nat.add_zero, div_self n1, div_self n2]
    | succ j ih =>
      have e : (if col Bar.v bs (k + j) < col Bar.v bs (k + j + 1) then 1
          else col Bar.c bs (k + j + 1) / col Bar.c bs (k + j)) = (if col Bar.v bs' (k' + j) < col Bar.v bs' (k' + j + 1) then 1
          else col Bar.c bs' (k' + j + 1) / col Bar.c bs' (k' + j)) := by simp only [Nat.add_assoc, hcol]
      rw [← Nat.add_assoc, ← Nat.add_assoc, Finset.prod_range_succ _ (k + j), Finset.prod_range_succ _ (k' + j), e,
        ← mul_assoc, ← mul_assoc, mul_div_right_comm, mul_div_right_comm (1000 * _), ih]

/-- Two histories of a market, the second with other old candles: the averages of period 3 differ by 2, 1, 1/2, 1/4. -/
example : SameTail (barItem (flatBars [(8 : ℚ), 4, 6, 5])) (barItem (flatBars [(6 : ℚ), 4, 6, 5])) 1 1 ∧
    Within 10 (barItem (flatBars [(8 : ℚ), 4, 6, 5])) ∧ Within 10 (barItem (flatBars [(6 : ℚ), 4, 6, 5])) ∧
    ((EMA 3).data (barItem (flatBars [(8 : ℚ), 4, 6, 5]))).toOption.map (·.map (·.value)) =
      some [.fin 8, .fin 6, .fin 6, .fin (11 / 2)] ∧
    ((EMA 3).data (barItem (flatBars [(6 : ℚ), 4, 6, 5]))).toOption.map (·.map (·.value)) =
      some [.fin 6, .fin 5, .fin (11 / 2), .fin (21 / 4)] := by
  refine ⟨rfl, ⟨_, holds_barItem _, ?_⟩, ⟨_, holds_barItem _, ?_⟩, ?_, ?_⟩ <;> decide +kernel

/-- Two on-balance volumes that differ by 12 for ever. -/
example : (OBV.data (barItem ([⟨1, 1, 1, 1, 5⟩, ⟨2, 2, 2, 2, 6⟩, ⟨3, 3, 3, 3, 7⟩] : List (Bar ℚ)))).toOption.map
      (·.map (·.value)) = some [.fin 0, .fin 6, .fin 13] ∧
    (OBV.data (barItem ([⟨4, 4, 4, 4, 5⟩, ⟨2, 2, 2, 2, 6⟩, ⟨3, 3, 3, 3, 7⟩] : List (Bar ℚ)))).toOption.map
      (·.map (·.value)) = some [.fin 0, .fin (-6), .fin 1] := by decide +kernel

end Verif.Props
