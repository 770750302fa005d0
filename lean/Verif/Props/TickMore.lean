import Verif.Props.TickSides
import Verif.Props.Trailing

/-!
# Percentages of the price, and the trailing stop, after an uptick (C127)
-/

set_option linter.unusedSectionVars false
set_option linter.unusedVariables false

namespace Verif.Props
open Verif Verif.Klines Verif.Ta Verif.Ind GoFloat XF

variable {K : Type} [Field K] [LinearOrder K] [IsStrictOrderedRing K]

/-- The close is positive. -/
abbrev PosCloses (b : Bar K) : Prop := 0 < b.c

section ppo
variable {n : Nat} {x y : Nat → Candle (XF K)} {b b' : Nat → Bar K}

theorem emaK_pos {p : Nat} (hp : 1 ≤ p) {a : Nat → K} {i : Nat} (h : ∀ j ≤ i, 0 < a j) : 0 < emaK p a i := by
  have hp1 : (1 : K) ≤ p := by exact_mod_cast hp
  induction i with
  | zero => exact h 0 le_rfl
  | succ i ih =>
    have h1 := h (i + 1) le_rfl
    have h2 := ih fun j hj => h j (by omega)
    rw [emaK]
    exact div_pos (add_pos_of_pos_of_nonneg (by linarith) (mul_nonneg (by linarith) h2.le)) (by linarith)

/-- The slow average of positive prices is at least the fast one times the quotient of their shares. -/
theorem ema_share_le {p s : Nat} (hp : 1 ≤ p) (hps : p ≤ s) {a : Nat → K} {i : Nat} (h : ∀ j ≤ i, 0 < a j) :
    2 / ((s : K) + 1) * emaK p a i ≤ 2 / ((p : K) + 1) * emaK s a i := by
  have hp1 : (1 : K) ≤ p := by exact_mod_cast hp
  have hs1 : (p : K) ≤ s := by exact_mod_cast hps
  have hA : (0 : K) ≤ 2 / ((p : K) + 1) := by positivity
  have hle : 2 / ((s : K) + 1) ≤ 2 / ((p : K) + 1) := div_le_div_of_nonneg_left (by norm_num) (by linarith) (by linarith)
  have hA1 : 2 / ((p : K) + 1) ≤ 1 := by rw [div_le_one (by linarith)]; linarith
  have step : ∀ (q : Nat) (k : Nat), emaK q a (k + 1) = 2 / ((q : K) + 1) * a (k + 1) + (1 - 2 / ((q : K) + 1)) * emaK q a k := by
    intro q k
    have : (q : K) + 1 ≠ 0 := by positivity
    rw [emaK]; field_simp; ring
  induction i with
  | zero => exact mul_le_mul_of_nonneg_right hle (h 0 le_rfl).le
  | succ i ih =>
    have h1 := ih fun j hj => h j (by omega)
    have hF := emaK_pos hp (a := a) (i := i) fun j hj => h j (by omega)
    have hS := emaK_pos (hp.trans hps) (a := a) (i := i) fun j hj => h j (by omega)
    rw [step, step]
    set A := 2 / ((p : K) + 1)
    set B := 2 / ((s : K) + 1)
    set F := emaK p a i
    set S := emaK s a i
    have e1 : (1 - A) * (B * F) ≤ (1 - A) * (A * S) := mul_le_mul_of_nonneg_left h1 (by linarith)
    have e2 : (1 - A) * (A * S) ≤ (1 - B) * (A * S) := mul_le_mul_of_nonneg_right (by linarith) (mul_nonneg hA hS.le)
    nlinarith

/-- The percentage line. -/
theorem TickB.ppo (hC : Cols (n + 1) x b) (hC' : Cols (n + 1) y b') (hT : TickB n b b') {p s : Nat} (hp : 1 ≤ p) (hps : p ≤ s)
    (hw : ∀ j < n + 1, PosCloses (b j)) : ∃ d, 0 ≤ d ∧ Nudged n (ppoF p s x) (ppoF p s y) d := by
  have hm : Nudges n (fun i => (b i).c) (fun i => (b' i).c) ((b' n).c - (b n).c) :=
    ⟨fun j hj => by rw [hT.same j hj], by ring⟩
  have e : ∀ (z : Nat → Candle (XF K)) (w : Nat → Bar K), Cols (n + 1) z w → ∀ j, ppoF p s z j =
      .fin ((emaK p (fun i => (w i).c) j - emaK s (fun i => (w i).c) j) / emaK s (fun i => (w i).c) j * 100) := fun z w hz j => by
    rw [ppoF, hz.cl, emaF_fin, emaF_fin, subF_fin, safeDiv_fin_eq, fl_fin, mul_fin]; norm_num
  refine ⟨_, ?_, _, _, fun j _ => e x b hC j, fun j _ => e y b' hC' j,
    fun j hj => by rw [(hm.ema p).same j hj, (hm.ema s).same j hj], (add_sub_cancel _ _).symm⟩
  rw [sub_nonneg]
  refine mul_le_mul_of_nonneg_right ?_ (by norm_num)
  rw [(hm.ema p).move, (hm.ema s).move]
  have hd := hT.dc
  have hS := emaK_pos (hp.trans hps) (a := fun i => (b i).c) (i := n) fun j hj => hw j (by omega)
  have hshare := emaShare_nonneg (K := K) s n
  rw [div_le_div_iff₀ hS (add_pos_of_pos_of_nonneg hS (mul_nonneg hshare hd))]
  have key : emaShare K s n * emaK p (fun i => (b i).c) n ≤ emaShare K p n * emaK s (fun i => (b i).c) n := by
    rw [emaShare, emaShare]
    split
    · next h0 => subst h0; exact le_rfl
    · exact ema_share_le hp hps fun j hj => hw j (by omega)
  nlinarith [mul_le_mul_of_nonneg_left key hd]

end ppo

section trend
variable {n : Nat} {x y : Nat → Candle (XF K)} {b b' : Nat → Bar K}

theorem nviF_num (hC : Cols (n + 1) x b) (hw : ∀ j < n + 1, PosCloses (b j)) : ∀ j ≤ n, ∃ r : K, 0 < r ∧ nviF x j = .fin r := by
  intro j hj
  induction j with
  | zero => exact ⟨1000, by norm_num, by rw [nviF]; simp⟩
  | succ j ih =>
    obtain ⟨r, r0, hr⟩ := ih (by omega)
    have h1 := hw j (by omega)
    have h2 := hw (j + 1) (by omega)
    rw [nviF]
    split
    · exact ⟨r, r0, hr⟩
    · refine ⟨r + ((b (j + 1)).c - (b j).c) / (b j).c * r, ?_, ?_⟩
      · rw [show r + ((b (j + 1)).c - (b j).c) / (b j).c * r = (b (j + 1)).c / (b j).c * r by field_simp; ring]
        exact mul_pos (div_pos h2 h1) r0
      · rw [hr, hC.cl]; simp only [finF, sub_fin, div_fin h1.ne', mul_fin, add_fin]

theorem nviF_upto {F : Type} [GoFloat F] {x y : Nat → Candle F} {i : Nat} (h : ∀ j ≤ i, cl y j = cl x j) (h' : ∀ j ≤ i, vo y j = vo x j) :
    nviF y i = nviF x i := by
  induction i with
  | zero => rfl
  | succ i ih =>
    rw [nviF, nviF, ih (fun j hj => h j (by omega)) fun j hj => h' j (by omega), h _ le_rfl, h' _ le_rfl, h i (by omega), h' i (by omega)]

/-- The negative volume index. -/
theorem TickB.nvi (hC : Cols (n + 1) x b) (hC' : Cols (n + 1) y b') (hT : TickB n b b') (hw : ∀ j < n + 1, PosCloses (b j)) :
    ∃ d, 0 ≤ d ∧ Nudged n (nviF x) (nviF y) d := by
  have hw' : ∀ j < n + 1, PosCloses (b' j) := fun j hj => by
    rcases Nat.lt_or_ge j n with h | h
    · rw [PosCloses, hT.same j h]; exact hw j hj
    · obtain rfl : j = n := by omega
      exact (hw j hj).trans_le hT.c
  choose! a a0 ha using nviF_num hC hw
  choose! a' a0' ha' using nviF_num hC' hw'
  have hv : ∀ j ≤ n, vo y j = vo x j := fun j hj => by
    rw [hC'.vo, hC.vo]
    exact congrArg XF.fin (hT.v_eq j hj)
  have hc : ∀ j < n, Ind.cl y j = Ind.cl x j := fun j hj => by
    rw [hC'.cl, hC.cl]
    exact congrArg (fun w : Bar K => XF.fin w.c) (hT.same j hj)
  have hs : ∀ j < n, nviF y j = nviF x j := fun j hj => nviF_upto (fun l hl => hc l (by omega)) fun l hl => hv l (by omega)
  refine ⟨a' n - a n, ?_, a, a', ha, ha', fun j hj => ?_, by ring⟩
  · cases n with
    | zero =>
      have h1 := ha 0 le_rfl
      have h2 := ha' 0 le_rfl
      rw [nviF] at h1 h2
      rw [XF.fin.inj (h1.symm.trans h2)]; simp
    | succ n =>
      have h1 := ha (n + 1) le_rfl
      have h2 := ha' (n + 1) le_rfl
      have h0 := ha n (by omega)
      have p0 := a0 n (by omega)
      have c0 := hw n (by omega)
      rw [nviF] at h1 h2
      rw [hv _ le_rfl, hv n (by omega), hs n (by omega), hc n (by omega)] at h2
      split at h1 <;> rename_i hif
      · rw [if_pos hif] at h2
        rw [XF.fin.inj (h1.symm.trans h2)]; simp
      · rw [if_neg hif] at h2
        rw [h0, hC.cl] at h1
        rw [h0, hC'.cl, hC.cl] at h2
        simp only [finF, sub_fin, div_fin c0.ne', mul_fin, add_fin] at h1 h2
        rw [← XF.fin.inj h1, ← XF.fin.inj h2, sub_nonneg]
        have := hT.c
        exact add_le_add_right (mul_le_mul_of_nonneg_right (div_le_div_of_nonneg_right (by linarith) c0.le) p0.le) _
  · exact XF.fin.inj ((ha' j (by omega)).symm.trans ((hs j hj).trans (ha j (by omega))))

/-- The volume price trend. -/
theorem TickB.vpt (hC : Cols (n + 1) x b) (hC' : Cols (n + 1) y b') (hT : TickB n b b') (p : Nat)
    (hw : ∀ j < n + 1, PosCloses (b j) ∧ 0 ≤ (b j).v) :
    ∃ d, 0 ≤ d ∧ Nudged n (fun i => accum (vpt1 p x) 0 (i + 1)) (fun i => accum (vpt1 p y) 0 (i + 1)) d := by
  have e : ∀ (z : Nat → Candle (XF K)) (w : Nat → Bar K), Cols (n + 1) z w → ∀ i, vpt1 p z i =
      .fin ((w i).v * (((w i).c - shiftF p (w 0).c (fun j => (w j).c) i) / shiftF p (w 0).c (fun j => (w j).c) i)) := by
    intro z w hz i
    have hs : shiftF p (Ind.cl z 0) (Ind.cl z) i = .fin (shiftF p (w 0).c (fun j => (w j).c) i) := by
      rw [hz.cl, shiftF, shiftF]; split <;> rfl
    rw [vpt1, hs, hz.cl, hz.vo]
    simp only [finF, subF_fin, safeDiv_fin_eq, mul_fin]
  have hm : ∃ d, 0 ≤ d ∧ Nudges n
      (fun i => (b i).v * (((b i).c - shiftF p (b 0).c (fun j => (b j).c) i) / shiftF p (b 0).c (fun j => (b j).c) i))
      (fun i => (b' i).v * (((b' i).c - shiftF p (b' 0).c (fun j => (b' j).c) i) / shiftF p (b' 0).c (fun j => (b' j).c) i)) d := by
    refine ⟨_, ?_, fun j hj => ?_, (add_sub_cancel _ _).symm⟩
    · have hv := (hw n (by omega)).2
      rw [sub_nonneg, hT.v]
      refine mul_le_mul_of_nonneg_left ?_ hv
      have hcn := (hw n (by omega)).1
      by_cases hself : p = 0 ∨ n = 0
      · have e0 : ∀ w : Nat → Bar K, 0 < (w n).c → (w n).c - shiftF p (w 0).c (fun j => (w j).c) n = 0 := by
          intro w _
          rw [shiftF]
          rcases hself with h | h
          · subst h; simp
          · subst h
            split <;> simp
        rw [e0 b hcn, e0 b' (lt_of_lt_of_le hcn hT.c), zero_div, zero_div]
      · have es : shiftF p (b' 0).c (fun j => (b' j).c) n = shiftF p (b 0).c (fun j => (b j).c) n := by
          rw [shiftF, shiftF, hT.same 0 (by omega)]
          split
          · rfl
          · rw [hT.same _ (by omega)]
        have ps : 0 < shiftF p (b 0).c (fun j => (b j).c) n := by
          rw [shiftF]; split
          · exact (hw 0 (by omega)).1
          · exact (hw _ (by omega)).1
        rw [es]
        have := hT.c
        exact div_le_div_of_nonneg_right (by linarith) ps.le
    · have es : shiftF p (b' 0).c (fun j => (b' j).c) j = shiftF p (b 0).c (fun j => (b j).c) j := by
        rw [shiftF, shiftF, hT.same 0 (by omega)]
        split
        · rfl
        · rw [hT.same _ (by omega)]
      rw [es, hT.same j hj]
  obtain ⟨d, d0, hm⟩ := hm
  refine ⟨d, d0, _, _, fun j _ => by rw [funext (e x b hC)]; exact accum_fin _ _ _,
    fun j _ => by rw [funext (e y b' hC')]; exact accum_fin _ _ _, fun j hj => ?_, ?_⟩
  · exact Finset.sum_congr rfl fun l hl => by
      have := Finset.mem_range.mp hl
      rw [Nat.zero_add]; exact hm.same l (by omega)
  · rw [Finset.sum_range_succ, Finset.sum_range_succ]
    simp only [Nat.zero_add]
    rw [Finset.sum_congr rfl fun l hl => hm.same l (Finset.mem_range.mp hl), hm.move, add_assoc]

end trend

/-- **C127**, lines that divide by a price. They need positive closes. -/
theorem C127_relative_lines {p s : Nat} (hp : 1 ≤ p) (hps : p ≤ s) {q : Nat} (hq : 1 ≤ q) :
    Rises (K := K) PosCloses (PPO p s q).toIndicator PPO.Data.ppo ∧ Rises (K := K) PosCloses (PPO p s q).toIndicator PPO.Data.signal ∧
    Rises (K := K) PosCloses (PPO p s q).toIndicator PPO.Data.histogram ∧ Rises (K := K) PosCloses NVI Rec.value ∧
    Rises (K := K) (fun b => PosCloses b ∧ 0 ≤ b.v) (VPT p) Rec.value := by
  refine ⟨rises_of (PPO.appends _ _ _).yields fun n x y b b' hC hC' hT hw => hT.ppo hC hC' hp hps hw,
    rises_of (PPO.appends _ _ _).yields fun n x y b b' hC hC' hT hw => ?_,
    rises_of (PPO.appends _ _ _).yields fun n x y b b' hC hC' hT hw => ?_,
    rises_of NVI.appends.yields fun n x y b b' hC hC' hT hw => hT.nvi hC hC' hw,
    rises_of (VPT.appends _).yields fun n x y b b' hC hC' hT hw => hT.vpt hC hC' p hw⟩
  · obtain ⟨d, d0, h⟩ := hT.ppo hC hC' hp hps hw
    exact ⟨_, mul_nonneg (emaShare_nonneg q n) d0, h.ema q⟩
  · obtain ⟨d, d0, h⟩ := hT.ppo hC hC' hp hps hw
    exact ⟨_, self_share hq n d0, h.sub (h.ema q)⟩

section stop
variable {n : Nat} {x y : Nat → Candle (XF K)} {b b' : Nat → Bar K}

theorem trF_upto {F : Type} [GoFloat F] {h l c h' l' c' : Nat → F} {i : Nat} (e1 : ∀ j ≤ i, h j = h' j) (e2 : ∀ j ≤ i, l j = l' j)
    (e3 : ∀ j < i, c j = c' j) : trF h l c i = trF h' l' c' i := by
  cases i with
  | zero => rfl
  | succ k => rw [trF, trF, e1 _ le_rfl, e2 _ le_rfl, e3 k (by omega)]

theorem rmaS_upto {F : Type} [GoFloat F] (p : Nat) {y z : Nat → F} {i : Nat} (h : ∀ j ≤ i, y j = z j) : rmaS p y i = rmaS p z i := by
  induction i with
  | zero => rfl
  | succ i ih => rw [rmaS, rmaS, ih fun j hj => h j (by omega), h (i + 1) le_rfl]

theorem wilder_upto {F : Type} [GoFloat F] (p : Nat) {s : F} {y z : Nat → F} {m : Nat} (h : ∀ j ≤ p + m, y j = z j) :
    wilder p s y m = wilder p s z m := by
  induction m with
  | zero => rfl
  | succ m ih => rw [wilder, wilder, ih fun j hj => h j (by omega), h (p + (m + 1)) le_rfl]

theorem atrI_upto {F : Type} [GoFloat F] (p : Int) {h l c h' l' c' : Nat → F} {i : Nat} (e1 : ∀ j ≤ i, h j = h' j)
    (e2 : ∀ j ≤ i, l j = l' j) (e3 : ∀ j < i, c j = c' j) : atrI p h l c i = atrI p h' l' c' i := by
  have et : ∀ j ≤ i, trF h l c j = trF h' l' c' j := fun j hj =>
    trF_upto (fun m hm => e1 m (by omega)) (fun m hm => e2 m (by omega)) fun m hm => e3 m (by omega)
  rw [atrI, atrI, et i le_rfl]
  split
  · rfl
  split
  · rfl
  rw [atrF, atrF]
  split
  · rfl
  rw [wilder_upto (z := trF h' l' c') _ fun j hj => et j (by omega), rmaF, rmaF, rmaS_upto (z := trF h' l' c') _ fun j hj => et j (by omega)]

/-- The average true range at one candle is zero while it warms up. From then on it is the true range of that candle, averaged
with a quantity that the candle does not affect. -/
theorem atrI_last (p : Int) (h l c : Nat → K) (hl : ∀ i, l i ≤ h i) (i : Nat) :
    (∀ h' l' c' : Nat → K, atrI p (finF h') (finF l') (finF c') (i + 1) = .fin 0) ∨
    ∃ R w : K, 0 ≤ R ∧ 0 < w ∧ ∀ h' l' c' : Nat → K, (∀ j ≤ i, h' j = h j ∧ l' j = l j ∧ c' j = c j) →
      atrI p (finF h') (finF l') (finF c') (i + 1) = .fin ((R + trK h' l' c' (i + 1)) / w) := by
  by_cases h1 : p < 1
  · exact .inl fun _ _ _ => by rw [atrI, if_pos h1, fl_fin, Int.cast_zero]
  by_cases h2 : p = 1
  · subst h2
    exact .inr ⟨0, 1, le_rfl, one_pos, fun _ _ _ _ => by rw [atrI, if_neg h1, if_pos rfl, trF_fin, zero_add, div_one]⟩
  by_cases hi : i + 1 < p.toNat
  · exact .inl fun _ _ _ => by rw [atrI, if_neg h1, if_neg h2, atrF_fin (by omega), if_pos hi]
  have hp0 : 0 < p.toNat := by omega
  have hp1 : (1 : K) ≤ (p.toNat : K) := by exact_mod_cast hp0
  have hs := (rmaK_nonneg hp0 (fun j _ => trK_nonneg (c := c) hl j) (p.toNat - 1)).2
  have et : ∀ h' l' c' : Nat → K, (∀ j ≤ i, h' j = h j ∧ l' j = l j ∧ c' j = c j) → ∀ j ≤ i, trK h' l' c' j = trK h l c j := by
    intro h' l' c' e j hj
    cases j with
    | zero => rfl
    | succ k => rw [trK, trK, (e _ hj).1, (e _ hj).2.1, (e k (by omega)).2.2]
  have er : ∀ h' l' c' : Nat → K, rmaK p.toNat (trK h' l' c') p.toNat = 
      ((rmaK p.toNat (trK h' l' c') (p.toNat - 1)).2 * ((p.toNat : K) - 1) + trK h' l' c' p.toNat,
       ((rmaK p.toNat (trK h' l' c') (p.toNat - 1)).2 * ((p.toNat : K) - 1) + trK h' l' c' p.toNat) / p.toNat) := by
    intro h' l' c'
    obtain ⟨m, hm⟩ : ∃ m, p.toNat = m + 1 := ⟨p.toNat - 1, by omega⟩
    rw [hm, rmaK, if_neg (by omega)]; rfl
  by_cases hi' : i + 1 = p.toNat
  · refine .inr ⟨(rmaK p.toNat (trK h l c) (p.toNat - 1)).2 * ((p.toNat : K) - 1), p.toNat, mul_nonneg hs (by linarith),
      by linarith, fun h' l' c' e => ?_⟩
    rw [atrI, if_neg h1, if_neg h2, atrF_fin hp0, if_neg hi, hi', Nat.sub_self, wilderK, er,
      rmaK_congr (a := trK h' l' c') (a' := trK h l c) fun j _ hj => et h' l' c' e j (by omega)]
  · obtain ⟨m, hm⟩ : ∃ m, i + 1 - p.toNat = m + 1 := ⟨i - p.toNat, by omega⟩
    have him : p.toNat + (m + 1) = i + 1 := by omega
    have hw : ∀ m, 0 ≤ wilderK p.toNat (rmaK p.toNat (trK h l c) p.toNat).2 (trK h l c) m :=
      wilderK_nonneg hp0 (rmaK_nonneg hp0 (fun j _ => trK_nonneg hl j) _).2 (trK_nonneg hl)
    refine .inr ⟨wilderK p.toNat (rmaK p.toNat (trK h l c) p.toNat).2 (trK h l c) m * ((p.toNat : K) - 1), p.toNat,
      mul_nonneg (hw m) (by linarith), by linarith, fun h' l' c' e => ?_⟩
    have ew : ∀ k ≤ m, wilderK p.toNat (rmaK p.toNat (trK h l c) p.toNat).2 (trK h' l' c') k =
        wilderK p.toNat (rmaK p.toNat (trK h l c) p.toNat).2 (trK h l c) k := by
      intro k hk
      induction k with
      | zero => rfl
      | succ k ih => rw [wilderK, wilderK, ih (by omega), et h' l' c' e _ (by omega)]
    rw [atrI, if_neg h1, if_neg h2, atrF_fin hp0, if_neg hi, hm,
      rmaK_congr (a := trK h' l' c') (a' := trK h l c) fun j _ hj => et h' l' c' e j (by omega), wilderK, ew m le_rfl, him]

theorem utF_upto {F : Type} [GoFloat F] (p q : Int) {x y : Nat → Candle F} {i : Nat} (e1 : ∀ j ≤ i, hi y j = hi x j)
    (e2 : ∀ j ≤ i, lo y j = lo x j) (e3 : ∀ j ≤ i, cl y j = cl x j) : utF p q y i = utF p q x i := by
  induction i with
  | zero => rfl
  | succ i ih =>
    rw [utF, utF, ih (fun j hj => e1 j (by omega)) (fun j hj => e2 j (by omega)) fun j hj => e3 j (by omega), e3 _ le_rfl,
      e3 i (by omega), atrI_upto q e1 e2 fun j hj => e3 j (by omega)]

theorem trK_rise {n : Nat} {b b' : Nat → Bar K} (hT : TickB (n + 1) b b') (hw : (b (n + 1)).l ≤ (b (n + 1)).h) :
    trK (fun j => (b j).h) (fun j => (b j).l) (fun j => (b j).c) (n + 1) ≤
      trK (fun j => (b' j).h) (fun j => (b' j).l) (fun j => (b' j).c) (n + 1) := by
  have h1 := hT.h_le
  rw [trK, trK, hT.same n (by omega), hT.l]
  refine max_le (max_le ?_ ?_) (le_max_right _ _)
  · exact le_trans (by linarith) ((le_max_left _ _).trans (le_max_left _ _))
  · rw [abs_le']
    constructor
    · exact le_trans (by linarith [le_abs_self ((b n).c - (b (n + 1)).l)] : (b n).c - (b (n + 1)).h ≤ |(b n).c - (b (n + 1)).l|) (le_max_right _ _)
    · exact le_trans (by linarith [neg_abs_le ((b n).c - (b' (n + 1)).h)] : -((b n).c - (b (n + 1)).h) ≤ |(b n).c - (b' (n + 1)).h|)
        ((le_max_right _ _).trans (le_max_left _ _))

/-- The distance of the stop before and after. -/
theorem TickB.loss (hC : Cols (n + 1 + 1) x b) (hC' : Cols (n + 1 + 1) y b') (hT : TickB (n + 1) b b')
    (hw : ∀ j < n + 1 + 1, CloseInside (b j)) {p : Nat} (hp : 1 ≤ p) (q : Int) :
    ∃ a a' : K, (fl p : XF K) *. atrI q (hi x) (lo x) (Ind.cl x) (n + 1) = .fin a ∧
      (fl p : XF K) *. atrI q (hi y) (lo y) (Ind.cl y) (n + 1) = .fin a' ∧ 0 ≤ a ∧ a ≤ a' ∧
      (a = 0 → 0 < a' → (b n).c = (b (n + 1)).c) := by
  have hp1 : (0 : K) < p := by exact_mod_cast hp
  have f : ∀ r : K, (fl p : XF K) *. .fin r = .fin (p * r) := fun r => by rw [fl_fin, mul_fin]; norm_num
  have eh : atrI q (hi x) (lo x) (Ind.cl x) (n + 1) = atrI q (finF fun j => if j < n + 1 + 1 then (b j).h else 0)
      (finF fun j => if j < n + 1 + 1 then (b j).l else 0) (finF fun j => (b j).c) (n + 1) := by
    rw [hC.hi, hC.lo, hC.cl]
    exact atrI_upto q (fun j hj => by simp only [finF]; rw [if_pos (by omega)]) (fun j hj => by simp only [finF]; rw [if_pos (by omega)])
      fun _ _ => rfl
  have hl : ∀ i, (fun j => if j < n + 1 + 1 then (b j).l else 0) i ≤ (fun j => if j < n + 1 + 1 then (b j).h else 0) i := fun i => by
    beta_reduce
    split
    · next h => exact (hw i h).1.trans (hw i h).2
    · exact le_rfl
  have hwn := hw (n + 1) (by omega)
  rcases atrI_last q _ _ (fun j => (b j).c) hl n with h0 | ⟨R, w, R0, w0, h⟩
  · refine ⟨0, 0, ?_, ?_, le_rfl, le_rfl, fun _ h => absurd h (lt_irrefl _)⟩
    · rw [hC.hi, hC.lo, hC.cl, h0, f, mul_zero]
    · rw [hC'.hi, hC'.lo, hC'.cl, h0, f, mul_zero]
  · have e1 := h (fun j => (b j).h) (fun j => (b j).l) (fun j => (b j).c) fun j hj => ⟨by rw [if_pos (by omega)], by rw [if_pos (by omega)], rfl⟩
    have e2 := h (fun j => (b' j).h) (fun j => (b' j).l) (fun j => (b' j).c) fun j hj =>
      ⟨by rw [if_pos (by omega), hT.same j (by omega)], by rw [if_pos (by omega), hT.same j (by omega)], by rw [hT.same j (by omega)]⟩
    have t0 : |(b n).c - (b (n + 1)).h| ≤ trK (fun j => (b j).h) (fun j => (b j).l) (fun j => (b j).c) (n + 1) := by
      rw [trK]; exact (le_max_right _ _).trans (le_max_left _ _)
    have t1 : |(b n).c - (b (n + 1)).l| ≤ trK (fun j => (b j).h) (fun j => (b j).l) (fun j => (b j).c) (n + 1) := by
      rw [trK]; exact le_max_right _ _
    have tp := (abs_nonneg _).trans t0
    refine ⟨_, _, by rw [hC.hi, hC.lo, hC.cl, e1, f], by rw [hC'.hi, hC'.lo, hC'.cl, e2, f], ?_, ?_, fun h _ => ?_⟩
    · exact mul_nonneg hp1.le (div_nonneg (by linarith) w0.le)
    · have := trK_rise hT (hwn.1.trans hwn.2)
      exact mul_le_mul_of_nonneg_left (div_le_div_of_nonneg_right (by linarith) w0.le) hp1.le
    · have hz : R + trK (fun j => (b j).h) (fun j => (b j).l) (fun j => (b j).c) (n + 1) = 0 := by
        rcases mul_eq_zero.mp h with h | h
        · exact absurd h hp1.ne'
        · exact (div_eq_zero_iff.mp h).resolve_right w0.ne'
      have a1 := abs_le.mp (t0.trans (by linarith : _ ≤ (0 : K)))
      have a2 := abs_le.mp (t1.trans (by linarith : _ ≤ (0 : K)))
      linarith [hwn.1, hwn.2]

theorem utF_num (hC : Cols (n + 1 + 1) x b) (p q : Int) (i : Nat) : ∃ t, utF p q x i = .fin t := by
  obtain ⟨a, ea, -⟩ := atrI_fin q (fun i => (b i).h) (fun i => (b i).l) (fun i => (b i).c)
  induction i with
  | zero => exact ⟨0, by rw [utF, fl_fin, Int.cast_zero]⟩
  | succ k ih =>
    obtain ⟨t, ht⟩ := ih
    rw [utF, ht, hC.cl, hC.hi, hC.lo, ea, fl_fin, mul_fin, ut_step_fin]
    exact ⟨_, rfl⟩

/-- The rule of `UTBot` on numbers. -/
theorem ut_bull {t t' t'' : Int} {s pc c c' w w' : K} (hc : c ≤ c') (hw : 0 ≤ w) (hww : w ≤ w')
    (hz : w = 0 → 0 < w' → pc = c) :
    bull (UT.rule ⟨t, XF.fin pc, XF.fin s⟩ ⟨t', XF.fin c, UT.step (XF.fin s) (XF.fin pc) (XF.fin c) (XF.fin w)⟩) ≤
      bull (UT.rule ⟨t, XF.fin pc, XF.fin s⟩ ⟨t'', XF.fin c', UT.step (XF.fin s) (XF.fin pc) (XF.fin c') (XF.fin w')⟩) := by
  have zero : ∀ (u : Int) (e : K), UT.step (XF.fin s) (XF.fin pc) (XF.fin e) (XF.fin 0) = .fin e := by
    intro u e
    rw [ut_step_fin]
    congr 1
    split
    · next h => rw [sub_zero, max_eq_right h.1.le]
    · split
      · next h => rw [add_zero, min_eq_right h.1.le]
      · split
        · rw [sub_zero]
        · rw [add_zero]
  have e : ∀ (u : Int) (e w : K), 0 < w → UT.rule ⟨t, XF.fin pc, XF.fin s⟩ ⟨u, XF.fin e, UT.step (XF.fin s) (XF.fin pc) (XF.fin e) (XF.fin w)⟩ =
      if decide (pc < s ∧ s < e) then Buy else if decide (s < pc ∧ e ≤ s) then Sell else Hold := by
    intro u e w hw
    rw [ut_step_fin]
    obtain ⟨h1, h2⟩ := (stop_step (s := s) (pc := pc) (c := e) (w := w) rfl).2.2.2 hw
    simp only [UT.rule, GoFloat.gt, lt_fin, Bool.and_eq_true, decide_eq_true_iff]
    refine if_congr ?_ rfl (if_congr ?_ rfl rfl)
    · rw [← h1]; exact ⟨fun h => ⟨h.2.2, h.1⟩, fun h => ⟨h.2, h.2, h.1⟩⟩
    · rw [← h2]; exact ⟨fun h => ⟨h.2.2, h.1⟩, fun h => ⟨h.2, h.2, h.1⟩⟩
  rcases hw.eq_or_lt with h0 | h0
  · subst h0
    have hold : UT.rule ⟨t, XF.fin pc, XF.fin s⟩ ⟨t', XF.fin c, XF.fin c⟩ = Hold := by simp [UT.rule, GoFloat.gt]
    rw [zero t, hold]
    rcases hww.eq_or_lt with h1 | h1
    · subst h1
      rw [zero t]
      simp [UT.rule, GoFloat.gt]
    · rw [e t'' c' w' h1]
      have hp := hz rfl h1
      have : ¬ (s < pc ∧ c' ≤ s) := fun h => by linarith [h.1, h.2]
      rw [decide_eq_false this]
      by_cases hb : pc < s ∧ s < c'
      · rw [decide_eq_true hb]; decide
      · rw [decide_eq_false hb]; decide
  · rw [e t' c w h0, e t'' c' w' (h0.trans_le hww)]
    refine bull_le ?_ ?_ <;> simp only [decide_eq_true_iff]
    · exact fun h => ⟨h.1, h.2.trans_le hc⟩
    · exact fun h => ⟨h.1, hc.trans h.2⟩

end stop

/-- **C127**, two more strategies that follow the price: `PPO` for positive closes, and `UTBot` for candles that close within their range,
with a positive multiple of the average true range. -/
theorem C127_more_signals {p s q : Nat} (hp : 1 ≤ p) (hps : p ≤ s) (hq : 1 ≤ q) (a : Int) :
    SidesRise (K := K) PosCloses (PPO p s q) ∧ SidesRise (K := K) CloseInside (UT p a) := by
  refine ⟨sidesRise_of (PPO.signals _ _ _) fun n x y b b' hC hC' hT hw _ => ?_,
    sidesRise_of (UT.signals _ _) fun n x y b b' hC hC' hT hw _ => ?_⟩
  · obtain ⟨d, d0, h⟩ := hT.ppo hC hC' hp hps hw
    exact cross_rise h (h.ema q) (sub_nonneg.mp (self_share hq _ d0))
  · cases n with
    | zero =>
      have e : ∀ z : Nat → Candle (XF K), pairSide UT.rule (UT.out p a z) (0 + 1) = Hold := fun z => by
        show UT.rule UT.zero _ = Hold
        simp [UT.rule, UT.zero, GoFloat.gt]
      rw [e, e]
    | succ m =>
      obtain ⟨w, w', ew, ew', w0, ww, hz⟩ := TickB.loss hC hC' hT hw hp a
      obtain ⟨st, est⟩ := utF_num hC p a (m + 1)
      have hsame : ∀ j ≤ m + 1, b' j = b j := fun j hj => hT.same j (by omega)
      have eu : utF p a y (m + 1) = utF p a x (m + 1) := utF_upto _ _
        (fun j hj => by rw [hC.hi, hC'.hi]; simp only [finF]; rw [hsame j hj])
        (fun j hj => by rw [hC.lo, hC'.lo]; simp only [finF]; rw [hsame j hj])
        (fun j hj => by rw [hC.cl, hC'.cl]; simp only [finF]; rw [hsame j hj])
      show bull (UT.rule ⟨ti x (m + 1), cl x (m + 1), utF p a x (m + 1)⟩ ⟨ti x (m + 1 + 1), cl x (m + 1 + 1),
          UT.step (utF p a x (m + 1)) (cl x (m + 1)) (cl x (m + 1 + 1)) (fl p *. atrI a (hi x) (lo x) (cl x) (m + 1 + 1))⟩) ≤
        bull (UT.rule ⟨ti y (m + 1), cl y (m + 1), utF p a y (m + 1)⟩ ⟨ti y (m + 1 + 1), cl y (m + 1 + 1),
          UT.step (utF p a y (m + 1)) (cl y (m + 1)) (cl y (m + 1 + 1)) (fl p *. atrI a (hi y) (lo y) (cl y) (m + 1 + 1))⟩)
      rw [ew, ew', eu, est, hC.cl, hC'.cl]
      simp only [finF]
      rw [hsame (m + 1) le_rfl]
      exact ut_bull hT.c w0 ww hz

section heat
variable {n : Nat} {f g : Nat → XF K} {d : K} {x y : Nat → Candle (XF K)} {b b' : Nat → Bar K}

theorem wsum0_upto {F : Type} [GoFloat F] {y z : Nat → F} {k : Nat} (h : ∀ j < k, y j = z j) : wsum0 y k = wsum0 z k := by
  induction k with
  | zero => rfl
  | succ k ih => rw [wsum0, wsum0, ih fun j hj => h j (by omega), h k (by omega)]

theorem wmaS_upto {F : Type} [GoFloat F] (p : Nat) {y z : Nat → F} {m : Nat} (h : ∀ j < p - 1 + m, y j = z j) (hp : 1 < p) :
    wmaS p y m = wmaS p z m := by
  induction m with
  | zero => rw [wmaS, wmaS, wsum0_upto fun j hj => h j (by omega), accum_upto fun j _ hj => h j (by omega)]
  | succ m ih => rw [wmaS, wmaS, ih fun j hj => h j (by omega), h (p - 1 + m) (by omega), h m (by omega)]

theorem wmaF_upto {F : Type} [GoFloat F] (p : Nat) {y z : Nat → F} {i : Nat} (h : ∀ j ≤ i, y j = z j) (hp : 0 < p) : wmaF p y i = wmaF p z i := by
  rw [wmaF, wmaF]
  split
  · exact h i le_rfl
  split
  · rfl
  rw [wmaS_upto (z := z) p (fun j hj => h j (by omega)) (by omega), h i le_rfl]

/-- A linearly weighted average takes up the newest value with its share, once the window is full. -/
theorem Nudged.wma (h : Nudged n f g d) {p : Nat} (hp : 0 < p) :
    Nudged n (wmaF p f) (wmaF p g) ((if n + 1 < p then 0 else 2 / ((p : K) + 1)) * d) := by
  obtain ⟨a, a', h1, h2, hm⟩ := h
  refine ⟨_, _, fun j hj => by rw [wmaF_upto (z := finF a) p (fun l hl => h1 l (by omega)) hp, wmaF_fin hp],
    fun j hj => by rw [wmaF_upto (z := finF a') p (fun l hl => h2 l (by omega)) hp, wmaF_fin hp], fun j hj => ?_, ?_⟩
  · split
    · rfl
    · congr 1
      exact Finset.sum_congr rfl fun l hl => by
        have := Finset.mem_range.mp hl
        rw [hm.same _ (by omega)]
  · by_cases hn : n + 1 < p
    · simp [hn]
    · simp only [if_neg hn]
      obtain ⟨q, rfl⟩ : ∃ q, p = q + 1 := ⟨p - 1, by omega⟩
      have e : n + 1 - (q + 1) + q = n := by omega
      rw [Finset.sum_range_succ, Finset.sum_range_succ, e, hm.move,
        Finset.sum_congr rfl fun l hl => by
          have := Finset.mem_range.mp hl
          rw [hm.same (n + 1 - (q + 1) + l) (by omega)]]
      have h0 : (0 : K) ≤ (q : K) := Nat.cast_nonneg q
      have h1 : (q : K) + 1 ≠ 0 := by positivity
      have h2 : (q : K) + 1 + 1 ≠ 0 := by positivity
      push_cast
      field_simp
      ring

/-- One smoothed stochastic. -/
theorem TickB.heat1 (hC : Cols (n + 1) x b) (hC' : Cols (n + 1) y b') (hT : TickB n b b') (hw : CloseInside (b n)) {u v : Nat} (hu : 1 ≤ u)
    (hv : 1 ≤ v) (kind : MAKind) (i : Nat) : ∃ e, 0 ≤ e ∧ Nudged n (heatF kind u v x (i + 1)) (heatF kind u v y (i + 1)) e := by
  obtain ⟨e, e0, he⟩ := hT.stoch hC hC' hw (p := (i + 1) * u) (Nat.mul_pos (by omega) hu)
  have ec : ((((i + 1 : Nat) : Int) * (u : Int))).toNat = (i + 1) * u := by
    rw [← Nat.cast_mul, Int.toNat_natCast]
  have e1 : ∀ z : Nat → Candle (XF K), stochF ((((i + 1 : Nat) : Int) * (u : Int))).toNat (Ind.cl z) (hi z) (lo z) =
      stochK (((i + 1) * u : Nat) : Int) z := fun z => by rw [ec]; rfl
  cases kind <;> simp only [heatF, e1]
  · exact ⟨_, mul_nonneg (emaShare_nonneg v n) e0, he.ema v⟩
  · exact ⟨_, div_nonneg e0 (Nat.cast_nonneg _), he.sma (p := v) hv⟩
  · exact ⟨_, mul_nonneg (by split <;> positivity) e0, he.wma hv⟩
  · exact ⟨e, e0, he⟩

/-- The fast line. -/
theorem TickB.heat (hC : Cols (n + 1) x b) (hC' : Cols (n + 1) y b') (hT : TickB n b b') (hw : CloseInside (b n)) {u v w : Nat} (hu : 1 ≤ u)
    (hv : 1 ≤ v) (hp : 1 ≤ w) (kind : MAKind) : ∃ e, 0 ≤ e ∧ Nudged n (heatFast u v w kind x) (heatFast u v w kind y) e := by
  have key : ∀ k, ∃ e, 0 ≤ e ∧ Nudged n (fun i => heatSum kind u v x i k) (fun i => heatSum kind u v y i k) e := by
    intro k
    induction k with
    | zero => exact hT.heat1 hC hC' hw hu hv kind 0
    | succ k ih =>
      obtain ⟨e, e0, he⟩ := ih
      obtain ⟨e', e0', he'⟩ := hT.heat1 hC hC' hw hu hv kind (k + 1)
      exact ⟨_, add_nonneg e0 e0', he.add he'⟩
  obtain ⟨e, e0, a, a', h1, h2, hm⟩ := key 27
  have hw0 : (w : K) ≠ 0 := by have : (0 : K) < w := by exact_mod_cast hp
                               exact this.ne'
  have f : ∀ r : K, ((XF.fin r /. fl w) /. fl 100) *. fl w = .fin (r / w / 100 * w) := fun r => by
    rw [fl_fin, Int.cast_natCast, div_fin hw0, fl_fin, div_fin (by norm_num), mul_fin]; norm_num
  refine ⟨e / w / 100 * w, by positivity, fun j => a j / w / 100 * w, fun j => a' j / w / 100 * w,
    fun j hj => by rw [heatFast, show heatSum kind u v x j 27 = _ from h1 j hj, f], fun j hj => by rw [heatFast, show heatSum kind u v y j 27 = _ from h2 j hj, f], fun j hj => by rw [hm.same j hj], ?_⟩
  rw [hm.move]; ring

/-- The slow line rises by no more than the fast one. -/
theorem TickB.heats (hC : Cols (n + 1) x b) (hC' : Cols (n + 1) y b') (hT : TickB n b b') (hw : CloseInside (b n)) {u v w s : Nat} (hu : 1 ≤ u)
    (hv : 1 ≤ v) (hp : 1 ≤ w) (hs : 1 ≤ s) (kind : MAKind) : ∃ e e', 0 ≤ e' ∧ e' ≤ e ∧ Nudged n (heatFast u v w kind x) (heatFast u v w kind y) e ∧
      Nudged n (heatSlow u v s w kind x) (heatSlow u v s w kind y) e' := by
  obtain ⟨e, e0, he⟩ := hT.heat hC hC' hw hu hv hp kind
  have hs1 : (1 : K) ≤ s := by exact_mod_cast hs
  have hwma : (0 : K) ≤ (if n + 1 < s then 0 else 2 / ((s : K) + 1)) ∧ (if n + 1 < s then 0 else 2 / ((s : K) + 1) : K) ≤ 1 := by
    split
    · exact ⟨le_rfl, zero_le_one⟩
    · exact ⟨by positivity, by rw [div_le_one (by linarith)]; linarith⟩
  have kw := And.intro (mul_nonneg hwma.1 e0) (mul_le_of_le_one_left e0 hwma.2)
  cases kind
  · exact ⟨e, _, mul_nonneg (emaShare_nonneg s n) e0, sub_nonneg.mp (self_share hs n e0), he, he.ema s⟩
  · refine ⟨e, _, div_nonneg e0 (Nat.cast_nonneg _), div_le_self e0 ?_, he, he.sma (p := s) hs⟩
    exact_mod_cast (by omega : 1 ≤ min s (n + 1))
  · exact ⟨e, _, kw.1, kw.2, he, he.wma hs⟩
  · exact ⟨e, _, kw.1, kw.2, he, he.wma hs⟩

end heat

/-- **C127**, `StochasticHeat`: both lines rise with the price, the slow one by no more than the fast one. As the rule buys when
the slow line goes above the fast one, the signal does not become more bullish. -/
theorem C127_heat {u v w s : Nat} (hu : 1 ≤ u) (hv : 1 ≤ v) (hw : 1 ≤ w) (hs : 1 ≤ s) (kind : MAKind) :
    Rises (K := K) CloseInside (Heat u v s w kind).toIndicator Heat.Data.fast ∧
    Rises (K := K) CloseInside (Heat u v s w kind).toIndicator Heat.Data.slow ∧
    SidesFall (K := K) CloseInside (Heat u v s w kind) := by
  refine ⟨rises_of (Heat.appends _ _ _ _ _).yields fun n x y b b' hC hC' hT hq => ?_,
    rises_of (Heat.appends _ _ _ _ _).yields fun n x y b b' hC hC' hT hq => ?_,
    sidesFall_of (Heat.signals _ _ _ _ _) fun n x y b b' hC hC' hT hq => ?_⟩
  · exact hT.heat hC hC' (hq n (by omega)) hu hv hw kind
  · obtain ⟨e, e', e0, -, -, h⟩ := hT.heats hC hC' (hq n (by omega)) hu hv hw hs kind
    exact ⟨e', e0, h⟩
  · obtain ⟨e, e', e0, hle, h, h'⟩ := hT.heats hC hC' (hq (n + 1) (by omega)) hu hv hw hs kind
    show bull (Heat.rule (Heat.out u v s w kind y n) (Heat.out u v s w kind y (n + 1))) ≤
      bull (Heat.rule (Heat.out u v s w kind x n) (Heat.out u v s w kind x (n + 1)))
    rw [Heat.rule, Heat.rule, Heat.out, Heat.out, Heat.out, Heat.out, h.prev (Nat.lt_succ_self n), h'.prev (Nat.lt_succ_self n)]
    refine bull_le ?_ ?_ <;> simp only [Bool.and_eq_true]
    · exact fun ⟨k1, k2⟩ => ⟨k1, h.below h' hle k2⟩
    · exact fun ⟨k1, k2⟩ => ⟨k1, h.above h' hle k2⟩

section boll
variable {n : Nat} {x y : Nat → Candle (XF ℝ)} {b b' : Nat → Bar ℝ}

theorem bollS_upto {F : Type} [GoMath F] (p : Nat) {y z : Nat → F} {i : Nat} (h : ∀ j ≤ i, y j = z j) (hp : 0 < p) : bollS p y i = bollS p z i := by
  induction i with
  | zero => rfl
  | succ i ih =>
    rw [bollS, bollS, ih fun j hj => h j (by omega), h i (by omega)]
    split
    · rfl
    · rw [h (i + 1 - p) (by omega)]

theorem dmaF_upto {F : Type} [GoMath F] (p : Nat) {y z : Nat → F} {i : Nat} (h : ∀ j ≤ i, y j = z j) (hp : 0 < p) : dmaF p y i = dmaF p z i := by
  rw [dmaF, dmaF, bollS_upto p h hp, smaF_upto p h, h i le_rfl]

/-- A price above the mean by more than the deviation of its window remains so when it rises. -/
theorem above_band {m : ℕ} (hm : 1 ≤ m) {T U c c' : ℝ} (hc : c ≤ c')
    (hV : 0 ≤ (U + c * c) / (m + 1) - (T + c) / (m + 1) * ((T + c) / (m + 1)))
    (h : (T + c) / (m + 1) + Real.sqrt ((U + c * c) / (m + 1) - (T + c) / (m + 1) * ((T + c) / (m + 1))) < c) :
    0 ≤ (U + c' * c') / (m + 1) - (T + c') / (m + 1) * ((T + c') / (m + 1)) ∧
    (T + c') / (m + 1) + Real.sqrt ((U + c' * c') / (m + 1) - (T + c') / (m + 1) * ((T + c') / (m + 1))) < c' := by
  have m1 : (1 : ℝ) ≤ m := by exact_mod_cast hm
  have m0 : (m : ℝ) ≠ 0 := by linarith
  have p0 : (m : ℝ) + 1 ≠ 0 := by linarith
  set W := U - T * T / m with hW
  have eV : ∀ e : ℝ, (U + e * e) / (m + 1) - (T + e) / (m + 1) * ((T + e) / (m + 1)) =
      (m * ((e - T / m) * (e - T / m)) + (m + 1) * W) / ((m + 1) * (m + 1)) := by
    intro e; rw [hW]; field_simp; ring
  have eA : ∀ e : ℝ, e - (T + e) / (m + 1) = m * (e - T / m) / (m + 1) := by
    intro e; field_simp; ring
  rw [eV] at hV h
  rw [eV]
  have pp : (0 : ℝ) < (m + 1) * (m + 1) := by nlinarith
  have h1 : Real.sqrt ((m * ((c - T / m) * (c - T / m)) + (m + 1) * W) / ((m + 1) * (m + 1))) < m * (c - T / m) / (m + 1) := by
    rw [← eA]; linarith
  have hA : 0 < m * (c - T / m) / (m + 1) := (Real.sqrt_nonneg _).trans_lt h1
  have t0 : 0 < c - T / m := by
    by_contra hn
    have : m * (c - T / m) / (m + 1) ≤ 0 := div_nonpos_of_nonpos_of_nonneg (mul_nonpos_of_nonneg_of_nonpos (by linarith) (not_lt.mp hn)) (by linarith)
    linarith
  rw [Real.sqrt_lt hV hA.le] at h1
  have t1 : c - T / m ≤ c' - T / m := by linarith
  have tt : (c - T / m) * (c - T / m) ≤ (c' - T / m) * (c' - T / m) := mul_self_le_mul_self t0.le t1
  have hV' : 0 ≤ (m * ((c' - T / m) * (c' - T / m)) + (m + 1) * W) / ((m + 1) * (m + 1)) := by
    refine hV.trans (div_le_div_of_nonneg_right ?_ pp.le)
    have := mul_le_mul_of_nonneg_left tt (by linarith : (0 : ℝ) ≤ m)
    linarith
  refine ⟨hV', ?_⟩
  have h2 : (m * (c - T / m) / (m + 1)) ^ 2 = (m * m) * ((c - T / m) * (c - T / m)) / ((m + 1) * (m + 1)) := by field_simp
  have h3 : (m * (c' - T / m) / (m + 1)) ^ 2 = (m * m) * ((c' - T / m) * (c' - T / m)) / ((m + 1) * (m + 1)) := by field_simp
  have hA' : 0 ≤ m * (c' - T / m) / (m + 1) := div_nonneg (mul_nonneg (by linarith) (t0.le.trans t1)) (by linarith)
  have key : Real.sqrt ((m * ((c' - T / m) * (c' - T / m)) + (m + 1) * W) / ((m + 1) * (m + 1))) < m * (c' - T / m) / (m + 1) := by
    rw [Real.sqrt_lt hV' hA', h3, div_lt_div_iff_of_pos_right pp]
    rw [h2, div_lt_div_iff_of_pos_right pp] at h1
    have := mul_le_mul_of_nonneg_left tt (mul_nonneg (by linarith) (by linarith) : (0 : ℝ) ≤ m * (m - 1))
    linarith
  have := eA c'
  linarith

end boll

/-- **C127**, `Boll` over the real numbers: a close that breaks out above the upper band still does so after an uptick, although
the band widens. The strategy does not sell. -/
theorem C127_boll {p : Nat} (hp : 1 ≤ p) (k : Int) : SidesRise (K := ℝ) (fun _ => True) (Boll p k) := by
  refine sidesRise_of (Boll.signals _ _) fun n x y b b' hC hC' hT _ _ => ?_
  have hcl := hT.cl hC hC'
  have hup : ∀ j ≤ n, Ind.cl y j = Ind.cl x j := fun j hj => hcl.prev (by omega)
  show bull (Boll.rule (Boll.out p x n) (Boll.out p x (n + 1)) (cl x n) (cl x (n + 1))) ≤
    bull (Boll.rule (Boll.out p y n) (Boll.out p y (n + 1)) (cl y n) (cl y (n + 1)))
  have eo : (Boll.out p y n).upper = (Boll.out p x n).upper := by
    simp only [Boll.out, Int.toNat_natCast]
    rw [smaF_upto p hup, dmaF_upto p hup hp]
  rw [Boll.rule, Boll.rule, eo, hup n le_rfl]
  have hself : ∀ z : Nat → Candle (XF ℝ), (cl z n >. cl z n) = false := fun z => by
    by_contra h
    rw [Bool.not_eq_false] at h
    have h' : (cl z n <. cl z n) = true := h
    exact absurd (xf_lt_asymm h') (by rw [h']; simp)
  rw [hself]
  refine bull_le ?_ ?_ <;> simp only [Bool.and_eq_true]
  · rintro ⟨h1, h2⟩
    refine ⟨?_, h2⟩
    by_cases hn : n + 1 + 1 < p
    · have hd : ∀ z : Nat → Candle (XF ℝ), (Boll.out p z (n + 1)).upper = smaF p (cl z) (n + 1) +. .fin 0 := fun z => by
        simp only [Boll.out, Int.toNat_natCast]
        rw [dmaF, if_pos hn, fl_fin, Int.cast_zero]
      have hs := (hcl.sma (p := p) hp).add (.const (c := (.fin 0 : XF ℝ)) rfl _)
      rw [hd] at h1 ⊢
      refine hcl.above hs ?_ h1
      rw [add_zero]
      exact div_le_self hT.dc (by exact_mod_cast (by omega : 1 ≤ min p (n + 1 + 1)))
    · have e : ∀ (z : Nat → Candle (XF ℝ)) (w : Nat → Bar ℝ), Cols (n + 1 + 1) z w → (Boll.out p z (n + 1)).upper =
          .fin ((psum (fun j => (w j).c) (n + 1) - psum (fun j => (w j).c) (n + 1 + 1 - p) + (w (n + 1)).c) / p) +.
          GoMath.sqrt (.fin ((psum (fun j => (w j).c * (w j).c) (n + 1) - psum (fun j => (w j).c * (w j).c) (n + 1 + 1 - p) +
            (w (n + 1)).c * (w (n + 1)).c) / p - (psum (fun j => (w j).c) (n + 1) - psum (fun j => (w j).c) (n + 1 + 1 - p) + (w (n + 1)).c) / p *
            ((psum (fun j => (w j).c) (n + 1) - psum (fun j => (w j).c) (n + 1 + 1 - p) + (w (n + 1)).c) / p))) := by
        intro z w hz
        have es : smaF p (Ind.cl z) (n + 1) = .fin ((psum (fun j => (w j).c) (n + 1) - psum (fun j => (w j).c) (n + 1 + 1 - p) + (w (n + 1)).c) / p) := by
          rw [hz.cl, smaF_fin hp, psum_succ _ (n + 1), show min p (n + 1 + 1) = p by omega]
          congr 1
          ring
        simp only [Boll.out, Int.toNat_natCast]
        rw [dmaF, if_neg hn, es, hz.cl, bollS_fin hp, fl_nat]
        have e0 : finF (fun j => (w j).c) (n + 1) = .fin (w (n + 1)).c := rfl
        rw [e0, mul_fin, add_fin, div_fin (natCast_ne hp), mul_fin, sub_fin]
      have hsame : ∀ j < n + 1, (b' j).c = (b j).c := fun j hj => by rw [hT.same j hj]
      have q1 : psum (fun j => (b' j).c) (n + 1) = psum (fun j => (b j).c) (n + 1) := psum_same hsame
      have q2 : psum (fun j => (b' j).c) (n + 1 + 1 - p) = psum (fun j => (b j).c) (n + 1 + 1 - p) :=
        psum_same fun j hj => hsame j (by omega)
      have q3 : psum (fun j => (b' j).c * (b' j).c) (n + 1) = psum (fun j => (b j).c * (b j).c) (n + 1) :=
        psum_same fun j hj => by rw [hsame j hj]
      have q4 : psum (fun j => (b' j).c * (b' j).c) (n + 1 + 1 - p) = psum (fun j => (b j).c * (b j).c) (n + 1 + 1 - p) :=
        psum_same fun j hj => by rw [hsame j (by omega)]
      rw [e x b hC, hC.cl] at h1
      rw [e y b' hC', hC'.cl, q1, q2, q3, q4]
      obtain ⟨m, rfl⟩ : ∃ m, p = m + 1 := ⟨p - 1, by omega⟩
      set T := psum (fun j => (b j).c) (n + 1) - psum (fun j => (b j).c) (n + 1 + 1 - (m + 1)) with hTd
      set U := psum (fun j => (b j).c * (b j).c) (n + 1) - psum (fun j => (b j).c * (b j).c) (n + 1 + 1 - (m + 1)) with hUd
      set V := (U + (b (n + 1)).c * (b (n + 1)).c) / ((m + 1 : Nat) : ℝ) - (T + (b (n + 1)).c) / ((m + 1 : Nat) : ℝ) * ((T + (b (n + 1)).c) / ((m + 1 : Nat) : ℝ)) with hVd
      rcases lt_or_ge V 0 with hneg | hpos
      · rw [sqrt_neg hneg] at h1
        exact absurd h1 (by
          show ¬ XF.lt (XF.add _ .nan) _ = true
          simp [XF.add, XF.lt])
      · rw [sqrt_fin hpos, add_fin] at h1
        have h1' : (T + (b (n + 1)).c) / ((m + 1 : Nat) : ℝ) + Real.sqrt V < (b (n + 1)).c := by
          simpa [GoFloat.gt, lt_fin, finF] using h1
        rcases Nat.eq_zero_or_pos m with rfl | hm
        · exfalso
          have hT0 : T = 0 := by rw [hTd]; simp
          rw [hT0] at h1'
          have := Real.sqrt_nonneg V
          simp at h1'
          linarith
        · have hc := hT.c
          have key := above_band hm hc (by rw [hVd] at hpos; push_cast at hpos; exact hpos) (by rw [hVd] at h1'; push_cast at h1'; exact h1')
          push_cast
          rw [sqrt_fin key.1, add_fin]
          simpa [GoFloat.gt, lt_fin, finF] using key.2
  · rintro ⟨-, h⟩
    exact absurd h (by simp)

end Verif.Props
