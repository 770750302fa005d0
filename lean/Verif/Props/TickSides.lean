import Verif.Props.TickVol

/-!
# Signals after an uptick (C127)
-/

set_option linter.unusedSectionVars false
set_option linter.unusedVariables false

namespace Verif.Props
open Verif Verif.Klines Verif.Ta Verif.Ind GoFloat XF

variable {K : Type} [Field K] [LinearOrder K] [IsStrictOrderedRing K]

section tools
variable {n : Nat} {f f' g g' : Nat → XF K} {d e : K}

theorem Nudged.prev (h : Nudged n f f' d) {j : Nat} (hj : j < n) : f' j = f j := by
  obtain ⟨a, a', h1, h2, hm⟩ := h
  rw [h1 j hj.le, h2 j hj.le, hm.same j hj]

theorem Nudged.const {c : XF K} {r : K} (hc : c = .fin r) (n : Nat) : Nudged n (fun _ => c) (fun _ => c) 0 :=
  ⟨fun _ => r, fun _ => r, fun _ _ => hc, fun _ _ => hc, fun _ _ => rfl, (add_zero _).symm⟩

/-- A line that gains on another one stays above it once it is above. -/
theorem Nudged.above (h : Nudged n f f' d) (h' : Nudged n g g' e) (hle : e ≤ d) :
    (f n >. g n) = true → (f' n >. g' n) = true := by
  obtain ⟨a, a', h1, h2, hm⟩ := h
  obtain ⟨c, c', k1, k2, km⟩ := h'
  rw [h1 n le_rfl, h2 n le_rfl, k1 n le_rfl, k2 n le_rfl, hm.move, km.move]
  simp only [GoFloat.gt, lt_fin, decide_eq_true_eq]
  intro h; linarith

theorem Nudged.below (h : Nudged n f f' d) (h' : Nudged n g g' e) (hle : e ≤ d) :
    (f' n <. g' n) = true → (f n <. g n) = true := by
  obtain ⟨a, a', h1, h2, hm⟩ := h
  obtain ⟨c, c', k1, k2, km⟩ := h'
  rw [h1 n le_rfl, h2 n le_rfl, k1 n le_rfl, k2 n le_rfl, hm.move, km.move]
  simp only [lt_fin, decide_eq_true_eq]
  intro h; linarith

theorem cross_rise (h : Nudged (n + 1) f f' d) (h' : Nudged (n + 1) g g' e) (hle : e ≤ d) :
    bull (crossRule (f (n + 1)) (g (n + 1)) (f n) (g n)) ≤ bull (crossRule (f' (n + 1)) (g' (n + 1)) (f' n) (g' n)) := by
  rw [crossRule, crossRule, h.prev (Nat.lt_succ_self n), h'.prev (Nat.lt_succ_self n)]
  refine bull_le ?_ ?_ <;> simp only [Bool.and_eq_true]
  · exact fun ⟨k1, k2⟩ => ⟨h.above h' hle k1, k2⟩
  · exact fun ⟨k1, k2⟩ => ⟨h.below h' hle k1, k2⟩

/-- The rules that buy on leaving the lower zone downwards and sell on leaving the upper zone upwards are contrarian. -/
theorem zones_fall (h : Nudged (n + 1) f f' d) (hd : 0 ≤ d) {lo hi : XF K} {r s : K} (hlo : lo = .fin r) (hhi : hi = .fin s) :
    bull (if f' (n + 1) <. lo && f' n >. lo then Buy else if f' (n + 1) >. hi && f' n <. hi then Sell else Hold) ≤
      bull (if f (n + 1) <. lo && f n >. lo then Buy else if f (n + 1) >. hi && f n <. hi then Sell else Hold) := by
  rw [h.prev (Nat.lt_succ_self n)]
  refine bull_le ?_ ?_ <;> simp only [Bool.and_eq_true]
  · exact fun ⟨k1, k2⟩ => ⟨h.below (.const hlo _) hd k1, k2⟩
  · exact fun ⟨k1, k2⟩ => ⟨h.above (.const hhi _) hd k1, k2⟩

theorem macd_rise {d' : K} (h : Nudged (n + 1) f f' d) (h' : Nudged (n + 1) g g' e) (hd : 0 ≤ d) (he : 0 ≤ e) (hle : e ≤ d)
    {t t' u u' : Int} {w w' z z' : XF K} :
    bull (MACD.rule ⟨t, f n, g n, w⟩ ⟨t', f (n + 1), g (n + 1), w'⟩) ≤
      bull (MACD.rule ⟨u, f' n, g' n, z⟩ ⟨u', f' (n + 1), g' (n + 1), z'⟩) := by
  have c0 : Nudged (n + 1) (fun _ => (fl 0 : XF K)) (fun _ => fl 0) 0 := .const (r := 0) (by simp) _
  rw [MACD.rule, MACD.rule]
  simp only []
  rw [h.prev (Nat.lt_succ_self n), h'.prev (Nat.lt_succ_self n)]
  refine bull_le ?_ ?_ <;> simp only [Bool.and_eq_true]
  · exact fun ⟨⟨⟨k1, k2⟩, k3⟩, k4⟩ => ⟨⟨⟨h.above c0 hd k1, h'.above c0 he k2⟩, h.above h' hle k3⟩, k4⟩
  · exact fun ⟨⟨⟨k1, k2⟩, k3⟩, k4⟩ => ⟨⟨⟨h.below c0 hd k1, h'.below c0 he k2⟩, h.below h' hle k3⟩, k4⟩

theorem band_rise (h : Nudged (n + 1) f f' d) {m m' : Nat → Band (XF K)} (hm : Nudged (n + 1) (fun i => (m i).middle)
    (fun i => (m' i).middle) e) (hle : e ≤ d) :
    bull (Band.rule (m n) (m (n + 1)) (f n) (f (n + 1))) ≤ bull (Band.rule (m' n) (m' (n + 1)) (f' n) (f' (n + 1))) := by
  have hp : (m' n).middle = (m n).middle := hm.prev (Nat.lt_succ_self n)
  rw [Band.rule, Band.rule, h.prev (Nat.lt_succ_self n), hp]
  refine bull_le ?_ ?_ <;> simp only [Bool.and_eq_true]
  · exact fun ⟨k1, k2⟩ => ⟨h.above hm hle k1, k2⟩
  · exact fun ⟨k1, k2⟩ => ⟨h.below hm hle k1, k2⟩

/-- The side of `TraderXO` grows with the comparison of its averages. -/
theorem xo_bull (s : XO.St) {B S B' S' : Bool} (h : B = true → B' = true) (h' : S' = true → S = true)
    (hx : B = true → S = false) (hx' : B' = true → S' = false) : bull (xoStepB s B S).2 ≤ bull (xoStepB s B' S').2 := by
  have key : ∀ B S : Bool, (B = true → S = false) → (xoStepB s B S).2 =
      if decide (s.countBuy < 1) && B && !s.buyPrev && decide (0 ≤ s.countBuy) then Buy else
      if decide (s.countSell < 1) && S && !s.sellPrev && decide (0 ≤ s.countSell) then Sell else Hold := fun B S hx => by
    cases B <;> cases S <;> first | exact absurd (hx rfl) (by decide) | skip
    · simp [xoStepB]
    · have e : (s.countSell + 1 > 0 ∧ s.countSell + 1 < 2) ↔ (s.countSell < 1 ∧ 0 ≤ s.countSell) := by omega
      simp only [xoStepB, gt_iff_lt] at e ⊢
      by_cases h1 : s.countSell < 1 <;> by_cases h2 : 0 ≤ s.countSell <;>
        simp [h1, h2, show (s.countSell + 1 < 2) ↔ s.countSell < 1 by omega, show (0 < s.countSell + 1) ↔ 0 ≤ s.countSell by omega]
    · by_cases h1 : s.countBuy < 1 <;> by_cases h2 : 0 ≤ s.countBuy <;>
        simp [xoStepB, h1, h2, show (s.countBuy + 1 < 2) ↔ s.countBuy < 1 by omega, show (0 < s.countBuy + 1) ↔ 0 ≤ s.countBuy by omega]
  rw [key _ _ hx, key _ _ hx']
  refine bull_le ?_ ?_ <;> simp only [Bool.and_eq_true]
  · exact fun ⟨⟨⟨k1, k2⟩, k3⟩, k4⟩ => ⟨⟨⟨k1, h k2⟩, k3⟩, k4⟩
  · exact fun ⟨⟨⟨k1, k2⟩, k3⟩, k4⟩ => ⟨⟨⟨k1, h' k2⟩, k3⟩, k4⟩

theorem xf_gt_excl {a c : XF K} : (a >. c) = true → (a <. c) = false := fun h => xf_lt_asymm h

theorem xo_same {x y : Nat → Candle (XF K)} {p q n : Nat} (h1 : ∀ j ≤ n, emaF p (cl y) j = emaF p (cl x) j)
    (h2 : ∀ j ≤ n, emaF q (cl y) j = emaF q (cl x) j) : (xoF (XO.out p q y) n).1 = (xoF (XO.out p q x) n).1 := by
  induction n with
  | zero => rfl
  | succ n ih =>
    rw [xoF, xoF, ih (fun j hj => h1 j (by omega)) fun j hj => h2 j (by omega)]
    have e : ∀ (s : XO.St) (z : Nat → Candle (XF K)), (XO.step s (XO.out p q z (n + 1))).1 =
        (xoStepB s (emaF q (cl z) (n + 1) <. emaF p (cl z) (n + 1)) (emaF p (cl z) (n + 1) <. emaF q (cl z) (n + 1))).1 := fun _ _ => rfl
    rw [e, e, h1 _ le_rfl, h2 _ le_rfl]

theorem any_same {α : Type} {l : List α} {f g : α → Bool} (h : ∀ a ∈ l, f a = g a) : l.any f = l.any g := by
  induction l with
  | nil => rfl
  | cons a l ih => rw [List.any_cons, List.any_cons, h a List.mem_cons_self, ih fun c hc => h c (List.mem_cons_of_mem _ hc)]

theorem cciF_upto {F : Type} [GoFloat F] (p sp : Nat) {y z : Nat → F} {i : Nat} (h : ∀ j ≤ i, y j = z j) :
    cciF p sp y i = cciF p sp z i := by
  rw [cciF, cciF]
  split
  · rfl
  · next hi =>
    rw [meanDevF, meanDevF, if_neg hi, if_neg hi, h i le_rfl, smaF_upto sp h]
    congr 3
    exact accum_upto fun j h1 h2 => by rw [h j (by omega)]

end tools

/-- **C127**, signals that follow the price: after an uptick the last signal is not less bullish. -/
theorem C127_signals {p q s l : Nat} (hp : 1 ≤ p) (hq : 1 ≤ q) (hps : p ≤ s) :
    SidesRise (K := K) (fun _ => True) (APO p s) ∧ SidesRise (K := K) (fun _ => True) Awesome ∧
    SidesRise (K := K) (fun _ => True) (MACD p q s) ∧ SidesRise (K := K) Traded (Chaikin p s) ∧
    SidesRise (K := K) (fun _ => True) (Donchian p) ∧ SidesRise (K := K) (fun _ => True) (Keltner p) ∧
    SidesRise (K := K) CloseInside (Stoch p) ∧ SidesRise (K := K) CloseInside (KDJ p) ∧
    SidesRise (K := K) (fun _ => True) (XO p s) ∧ SidesRise (K := K) CloseInside (Ichimoku p q l) ∧
    ∀ s1 s2 l1 l2 : Nat, p ≤ s1 → s1 ≤ l1 → s1 ≤ l2 → s2 ≤ l1 → s2 ≤ l2 →
      SidesRise (K := K) (fun _ => True) (Vegas p s1 s2 l1 l2) := by
  have z : (fl 0 : XF K) = .fin 0 := by simp
  refine ⟨sidesRise_of (APO.signals _ _) fun n x y b b' hC hC' hT _ _ =>
      cross_rise (hT.dif hC hC' p s) (.const z _) (diff_share hps _ hT.dc),
    sidesRise_of Awesome.signals fun n x y b b' hC hC' hT _ _ =>
      cross_rise (((hT.med hC hC').ema 5).sub ((hT.med hC hC').ema 34)) (.const z _)
        (diff_share (p := 5) (s := 34) (by norm_num) _ (div_nonneg hT.dh (by norm_num))),
    sidesRise_of (MACD.signals _ _ _) fun n x y b b' hC hC' hT _ _ => ?_,
    sidesRise_of (Chaikin.signals _ _) fun n x y b b' hC hC' hT hw _ => ?_,
    sidesRise_of (Donchian.signals _) fun n x y b b' hC hC' hT _ _ => ?_,
    sidesRise_of (Keltner.signals _) fun n x y b b' hC hC' hT _ _ =>
      band_rise (hT.cl hC hC') ((hT.cl hC hC').ema p) (sub_nonneg.mp (self_share hp _ hT.dc)),
    sidesRise_of (Stoch.signals _) fun n x y b b' hC hC' hT hw _ => ?_,
    sidesRise_of (KDJ.signals _) fun n x y b b' hC hC' hT hw _ => ?_,
    sidesRise_of (XO.signals _ _) fun n x y b b' hC hC' hT _ _ => ?_,
    sidesRise_of (Ichimoku.signals _ _ _) fun n x y b b' hC hC' hT hw _ => ?_,
    fun s1 s2 l1 l2 hps1 h11 h12 h21 h22 => sidesRise_of (Vegas.signals _ _ _ _ _) fun n x y b b' hC hC' hT _ hb => ?_⟩
  · have h := hT.dif hC hC' p s
    have h0 := diff_share hps (n + 1) hT.dc
    exact macd_rise (d' := 0) h (h.ema q) h0 (mul_nonneg (emaShare_nonneg q _) h0) (sub_nonneg.mp (self_share hq _ h0))
  · obtain ⟨e, e0, he⟩ := hT.ad hC hC' hw
    exact cross_rise ((he.ema p).sub (he.ema s)) (.const z _) (diff_share hps _ e0)
  · have hm : Nudges (n + 1) (fun i => (b i).c) (fun i => (b' i).c) ((b' (n + 1)).c - (b (n + 1)).c) :=
      ⟨fun j hj => by rw [hT.same j hj], by ring⟩
    obtain ⟨e, e0, e1, he⟩ := hm.max hT.dc hp
    obtain ⟨e', e0', e1', he'⟩ := hm.min hT.dc hp
    have h := (he.add he').scale half_fin
    rw [show (finF fun i => (b i).c) = Ind.cl x from hC.cl.symm, show (finF fun i => (b' i).c) = Ind.cl y from hC'.cl.symm] at h
    exact band_rise (hT.cl hC hC') h (by linarith)
  · obtain ⟨e, e0, he⟩ := hT.stoch hC hC' (hw _ (by omega)) hp
    refine cross_rise he (he.sma (p := 3) (by norm_num)) (div_le_self e0 ?_)
    exact_mod_cast (by omega : 1 ≤ min 3 (n + 1 + 1))
  · obtain ⟨e, e0, hk, hd⟩ := hT.kdj hC hC' (hw _ (by omega)) hp
    have hj : Nudged (n + 1) (fun i => fl 3 *. kF p x i -. fl 2 *. dF p x i) (fun i => fl 3 *. kF p y i -. fl 2 *. dF p y i)
        (7 / 9 * e) := by
      obtain ⟨k, k', k1, k2, km⟩ := hk
      obtain ⟨d, d', d1, d2, dm⟩ := hd
      have f3 : (fl 3 : XF K) = .fin 3 := by simp
      have f2 : (fl 2 : XF K) = .fin 2 := by simp
      refine ⟨fun i => 3 * k i - 2 * d i, fun i => 3 * k' i - 2 * d' i, fun i hi => ?_, fun i hi => ?_,
        fun i hi => by rw [km.same i hi, dm.same i hi], by rw [km.move, dm.move]; ring⟩
      · beta_reduce; rw [k1 i hi, d1 i hi, f3, f2, mul_fin, mul_fin, sub_fin]
      · beta_reduce; rw [k2 i hi, d2 i hi, f3, f2, mul_fin, mul_fin, sub_fin]
    show bull (if kF p x (n + 1) >. dF p x (n + 1) && (fun i => fl 3 *. kF p x i -. fl 2 *. dF p x i) (n + 1) >. dF p x (n + 1) &&
        kF p x n <. dF p x n && (fun i => fl 3 *. kF p x i -. fl 2 *. dF p x i) n <. dF p x n then Buy else
      if kF p x (n + 1) <. dF p x (n + 1) && (fun i => fl 3 *. kF p x i -. fl 2 *. dF p x i) (n + 1) <. dF p x (n + 1) &&
        kF p x n >. dF p x n && (fun i => fl 3 *. kF p x i -. fl 2 *. dF p x i) n >. dF p x n then Sell else Hold) ≤
      bull (if kF p y (n + 1) >. dF p y (n + 1) && (fun i => fl 3 *. kF p y i -. fl 2 *. dF p y i) (n + 1) >. dF p y (n + 1) &&
        kF p y n <. dF p y n && (fun i => fl 3 *. kF p y i -. fl 2 *. dF p y i) n <. dF p y n then Buy else
      if kF p y (n + 1) <. dF p y (n + 1) && (fun i => fl 3 *. kF p y i -. fl 2 *. dF p y i) (n + 1) <. dF p y (n + 1) &&
        kF p y n >. dF p y n && (fun i => fl 3 *. kF p y i -. fl 2 *. dF p y i) n >. dF p y n then Sell else Hold)
    have pj := hj.prev (Nat.lt_succ_self n)
    beta_reduce
    rw [pj, hk.prev (Nat.lt_succ_self n), hd.prev (Nat.lt_succ_self n)]
    refine bull_le ?_ ?_ <;> simp only [Bool.and_eq_true]
    · exact fun ⟨⟨⟨k1, k2⟩, k3⟩, k4⟩ => ⟨⟨⟨hk.above hd (by linarith) k1, hj.above hd (by linarith) k2⟩, k3⟩, k4⟩
    · exact fun ⟨⟨⟨k1, k2⟩, k3⟩, k4⟩ => ⟨⟨⟨hk.below hd (by linarith) k1, hj.below hd (by linarith) k2⟩, k3⟩, k4⟩
  · have h1 := (hT.cl hC hC').ema p
    have h2 := (hT.cl hC hC').ema s
    have hle := sub_nonneg.mp (diff_share (K := K) hps (n + 1) hT.dc)
    show bull (xoStepB (xoF (XO.out p s x) n).1 (emaF p (cl x) (n + 1) >. emaF s (cl x) (n + 1))
        (emaF p (cl x) (n + 1) <. emaF s (cl x) (n + 1))).2 ≤
      bull (xoStepB (xoF (XO.out p s y) n).1 (emaF p (cl y) (n + 1) >. emaF s (cl y) (n + 1))
        (emaF p (cl y) (n + 1) <. emaF s (cl y) (n + 1))).2
    rw [xo_same (fun j hj => h1.prev (by omega)) fun j hj => h2.prev (by omega)]
    exact xo_bull _ (h1.above h2 hle) (h1.below h2 hle) xf_gt_excl xf_gt_excl
  · have hh := hT.h_sub (hw _ (by omega)).2
    have dh := hT.dh
    have dc := hT.dc
    obtain ⟨e1, a1, a2, h1⟩ := hT.mid hC hC' (p := 9) (q := p) (by norm_num) hp
    obtain ⟨e2, a3, a4, h2⟩ := hT.mid hC hC' (p := 26) (q := 26) (by norm_num) (by norm_num)
    obtain ⟨e3, a5, a6, hB⟩ := hT.mid hC hC' (p := q) (q := q) hq hq
    have hA := (h1.add h2).scale half_fin
    have hc := hT.cl hC hC'
    show bull (ichiSide p q l x (n + 1)) ≤ bull (ichiSide p q l y (n + 1))
    rw [ichiSide, ichiSide]
    split
    · exact le_rfl
    · rw [Nat.add_sub_cancel]
      have pA : (Ichimoku.out p q l y n).spanA = (Ichimoku.out p q l x n).spanA := hA.prev (Nat.lt_succ_self n)
      have pB : (Ichimoku.out p q l y n).spanB = (Ichimoku.out p q l x n).spanB := hB.prev (Nat.lt_succ_self n)
      rw [Ichimoku.rule, Ichimoku.rule, pA, pB, hc.prev (Nat.lt_succ_self n)]
      refine bull_le ?_ ?_ <;> simp only [Bool.and_eq_true]
      · exact fun ⟨⟨⟨k1, k2⟩, k3⟩, k4⟩ => ⟨⟨⟨hc.above hA (by linarith) k1, hc.above hB (by linarith) k2⟩, k3⟩, k4⟩
      · exact fun ⟨⟨⟨k1, k2⟩, k3⟩, k4⟩ => ⟨⟨⟨hc.below hA (by linarith) k1, hc.below hB (by linarith) k2⟩, k3⟩, k4⟩
  · have hc := hT.cl hC hC'
    have hv := hc.ema p
    have hs1 := hc.ema s1
    have hs2 := hc.ema s2
    have hl1 := hc.ema l1
    have hl2 := hc.ema l2
    have le : ∀ {i j : Nat}, i ≤ j → emaShare K j (n + 1) * ((b' (n + 1)).c - (b (n + 1)).c) ≤
        emaShare K i (n + 1) * ((b' (n + 1)).c - (b (n + 1)).c) := fun h => sub_nonneg.mp (diff_share h _ hT.dc)
    have o : ∀ j < n + 1, (Vegas.out p s1 s2 l1 l2 y j).short2 = (Vegas.out p s1 s2 l1 l2 x j).short2 ∧
        (Vegas.out p s1 s2 l1 l2 y j).long2 = (Vegas.out p s1 s2 l1 l2 x j).long2 := fun j hj => ⟨hs2.prev hj, hl2.prev hj⟩
    show bull (vegasSide (Vegas.out p s1 s2 l1 l2 x) x (n + 1)) ≤ bull (vegasSide (Vegas.out p s1 s2 l1 l2 y) y (n + 1))
    rw [vegasSide, vegasSide]
    split
    · exact le_rfl
    · have hu : vegasUp (Vegas.out p s1 s2 l1 l2 y) (n + 1) = vegasUp (Vegas.out p s1 s2 l1 l2 x) (n + 1) := by
        refine any_same fun j hj => ?_
        have := List.mem_range.mp hj
        rw [(o _ (by omega)).1, (o _ (by omega)).2, (o _ (by omega)).1, (o _ (by omega)).2]
      have hd : vegasDown (Vegas.out p s1 s2 l1 l2 y) (n + 1) = vegasDown (Vegas.out p s1 s2 l1 l2 x) (n + 1) := by
        refine any_same fun j hj => ?_
        have := List.mem_range.mp hj
        rw [(o _ (by omega)).1, (o _ (by omega)).2, (o _ (by omega)).1, (o _ (by omega)).2]
      rw [Vegas.rule, Vegas.rule, hu, hd]
      refine bull_le ?_ ?_ <;> simp only [Bool.and_eq_true, Bool.not_eq_true']
      · exact fun ⟨⟨⟨⟨⟨⟨k1, k2⟩, k3⟩, k4⟩, k5⟩, k6⟩, k7⟩ => ⟨⟨⟨⟨⟨⟨hv.above hs1 (le hps1) k1, hs1.above hl1 (le h11) k2⟩,
          hs1.above hl2 (le h12) k3⟩, hs2.above hl1 (le h21) k4⟩, hs2.above hl2 (le h22) k5⟩, hb k6⟩, k7⟩
      · exact fun ⟨⟨⟨⟨⟨⟨k1, k2⟩, k3⟩, k4⟩, k5⟩, k6⟩, k7⟩ => ⟨⟨⟨⟨⟨⟨hv.below hs1 (le hps1) k1, hs1.below hl1 (le h11) k2⟩,
          hs1.below hl2 (le h12) k3⟩, hs2.below hl1 (le h21) k4⟩, hs2.below hl2 (le h22) k5⟩, by
            cases h : bu x (n + 1)
            · rfl
            · rw [hb h] at k6; exact absurd k6 (by decide)⟩, k7⟩

/-- **C127**, contrarian signals: the strategies that buy when their line falls through a lower threshold and sell when it
rises through an upper one are not more bullish after an uptick. -/
theorem C127_contrarian {p : Nat} (hp : 1 ≤ p) :
    SidesFall (K := K) (fun b => CloseInside b ∧ HasRange b) (Williams p) ∧
    SidesFall (K := K) (fun _ => True) (CCIi p p) ∧ ∀ q : Nat, SidesFall (K := K) (fun _ => True) (AiCCI q) := by
  have c1 : (fl 100 : XF K) = .fin 100 := by simp
  have c2 : (fl (-100) : XF K) = .fin (-100) := by simp
  refine ⟨sidesFall_of (Williams.signals _) fun n x y b b' hC hC' hT hw => ?_,
    sidesFall_of (CCIi.signals _ _) fun n x y b b' hC hC' hT _ => ?_,
    fun q => sidesFall_of (AiCCI.signals _) fun n x y b b' hC hC' hT _ => ?_⟩
  · obtain ⟨e, e0, he⟩ := hT.williams hC hC' (hw _ (by omega)).1 (fun j hj => (hw j hj).2) hp
    exact zones_fall he e0 (r := -80) (s := -20) (by simp) (by simp)
  · have up : ∀ (a : Nat → K) (i : Nat), ((cciF p p (finF a) i) <. (fl (-100))) = decide (cciK p a i < -100) ∧
        ((cciF p p (finF a) i) >. (fl 100)) = decide (100 < cciK p a i) := fun a i => by
      rcases cci_fin hp a i with h | ⟨h, h0⟩
      · rw [h, c1, c2]; exact ⟨rfl, rfl⟩
      · rw [h, h0, c1, c2]
        constructor
        · exact (decide_eq_false (by norm_num)).symm
        · exact (decide_eq_false (by norm_num)).symm
    show bull (if cciF p p (typF y) (n + 1) <. fl (-100) && cciF p p (typF y) n >. fl (-100) then Buy else
        if cciF p p (typF y) (n + 1) >. fl 100 && cciF p p (typF y) n <. fl 100 then Sell else Hold) ≤
      bull (if cciF p p (typF x) (n + 1) <. fl (-100) && cciF p p (typF x) n >. fl (-100) then Buy else
        if cciF p p (typF x) (n + 1) >. fl 100 && cciF p p (typF x) n <. fl 100 then Sell else Hold)
    rw [typ_fin hC, typ_fin hC', (up _ _).1, (up _ _).2, (up _ _).1, (up _ _).2]
    have hprev : cciF p p (finF fun j => ((b' j).h + (b' j).l + (b' j).c) / 3) n =
        cciF p p (finF fun j => ((b j).h + (b j).l + (b j).c) / 3) n := by
      refine cciF_upto p p fun j hj => ?_
      simp only [finF]
      rw [hT.same j (by omega)]
    have hr := cciK_rise (p := p) (by
      have := hT.dc
      have := hT.dh
      positivity) hT.typK
    rw [hprev]
    refine bull_le ?_ ?_ <;> simp only [Bool.and_eq_true, decide_eq_true_eq]
    · exact fun ⟨k1, k2⟩ => ⟨hr.trans_lt k1, k2⟩
    · exact fun ⟨k1, k2⟩ => ⟨k1.trans_le hr, k2⟩
  · have hm : Nudges (n + 1) (fun i => (b i).c) (fun i => (b' i).c) ((b' (n + 1)).c - (b (n + 1)).c) :=
      ⟨fun j hj => by rw [hT.same j hj], by ring⟩
    refine zones_fall (f := aiCciF q (cl x)) (f' := aiCciF q (cl y)) (d := cciK q (fun i => (b' i).c) (n + 1) - cciK q (fun i => (b i).c) (n + 1))
      ⟨cciK q fun i => (b i).c, cciK q fun i => (b' i).c, fun j _ => by rw [hC.cl, aiCci_fin],
        fun j _ => by rw [hC'.cl, aiCci_fin], fun j hj => cciK_same fun l hl => hm.same l (by omega), by ring⟩
      (sub_nonneg.mpr (cciK_rise hT.dc hm)) c2 c1

end Verif.Props
