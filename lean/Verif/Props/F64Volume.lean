import Verif.Props.F64Lines

/-!
# Volume lines in float64 arithmetic (C105)
-/

namespace Verif.Props
open Verif Verif.Klines Verif.Ta Verif.Ind GoFloat

/-- **C105 (Obv).** If the volumes are integer multiples of one power of two whose total stays within 53 bits (whole
numbers of shares up to `2^53`), the float64 line is the exact signed sum of the volumes; the closes may be any float64
numbers. -/
theorem C105_obv_exact {f : ℤ} (hf : -1074 ≤ f) (hf' : f ≤ 970) {m : Nat → ℤ} {it : Item B64} {bs : List (Bar ℚ)}
    (hb : Holds64 it bs) (hm : ∀ (j : Nat) (b : Bar ℚ), bs[j]? = some b → b.v = m j * 2 ^ f)
    (ht : ∑ j ∈ Finset.Ico 1 bs.length, |m j| ≤ 2 ^ 53) {d : List (Rec B64)} (hd : OBV.data it = .ok d) {i : Nat}
    {r : Rec B64} (hr : d[i]? = some r) :
    r.value.val = .fin (∑ j ∈ Finset.Ico 1 (i + 1), signedVolume bs j) := by
  obtain ⟨x, b, hx, hbs, hc, -⟩ := hb.cols
  obtain ⟨hi, -, rfl⟩ := at64 OBV.grows.yields hx hd hr
  have ec : ∀ j, j < bs.length → ∀ g : Bar ℚ → ℚ, col g bs j = g (b j) := fun j hj g => by
    conv_lhs => rw [hbs]
    exact col_tab _ b hj
  have hm' : ∀ j < bs.length, (b j).v = m j * 2 ^ f := fun j hj =>
    hm j _ (by conv_lhs => rw [hbs]
               exact tab_getElem?_lt hj)
  obtain ⟨s, hs⟩ : ∃ s : Nat → ℤ, ∀ j < bs.length, |s j| ≤ |m j| ∧ signedVolume bs j = s j * 2 ^ f := by
    refine ⟨fun j => if col Bar.c bs (j - 1) < col Bar.c bs j then m j
      else if col Bar.c bs j < col Bar.c bs (j - 1) then - m j else 0, fun j hj => ?_⟩
    rw [signedVolume, ec j hj Bar.v, hm' j hj]
    dsimp only
    split_ifs <;> simp
  have hsum : ∀ k < bs.length, SRep (∑ j ∈ Finset.Ico 1 (k + 1), signedVolume bs j) := by
    intro k hk
    rw [Finset.sum_congr rfl (g := fun j => (s j : ℚ) * 2 ^ f)
      (fun j hj => (hs j (by have := Finset.mem_Ico.mp hj; omega)).2), ← Finset.sum_mul, ← Int.cast_sum]
    refine srep_scaled ((Finset.abs_sum_le_sum_abs _ _).trans (le_trans ?_ ht)) hf hf'
    refine (Finset.sum_le_sum fun j hj => (hs j (by have := Finset.mem_Ico.mp hj; omega)).1).trans ?_
    exact Finset.sum_le_sum_of_subset_of_nonneg (Finset.Ico_subset_Ico le_rfl (by omega)) fun _ _ _ => abs_nonneg _
  show (obvF x i).val = _
  clear hr hd
  induction i with
  | zero => simpa [obvF] using val_zero64
  | succ k ih =>
    have ih := ih (by omega)
    have hk := hsum (k + 1) hi
    rw [Finset.sum_Ico_succ_top (show 1 ≤ k + 1 by omega)] at hk ⊢
    have es : signedVolume bs (k + 1) = if (b k).c < (b (k + 1)).c then (b (k + 1)).v
        else if (b (k + 1)).c < (b k).c then - (b (k + 1)).v else 0 := by
      rw [signedVolume, ec _ hi, ec _ hi, Nat.add_sub_cancel, ec _ (by omega)]
    rw [es] at hk ⊢
    have e1 : (Ind.cl x (k + 1) >. Ind.cl x k) = decide ((b k).c < (b (k + 1)).c) := B64.lt_val (hc.cl k) (hc.cl _)
    have e2 : (Ind.cl x (k + 1) <. Ind.cl x k) = decide ((b (k + 1)).c < (b k).c) := B64.lt_val (hc.cl _) (hc.cl k)
    have e3 : (Ind.cl x (k + 1) ==. Ind.cl x k) = decide ((b (k + 1)).c = (b k).c) := B64.eq_val (hc.cl _) (hc.cl k)
    rw [obvF, e1, e2, e3]
    by_cases h1 : (b k).c < (b (k + 1)).c
    · simp only [h1, decide_true, if_true] at hk ⊢
      rw [B64.val_add ih (hc.vo _)]
      exact round64_rep hk
    · by_cases h2 : (b (k + 1)).c < (b k).c
      · simp only [h1, h2, decide_true, decide_false, if_true, if_false, Bool.false_eq_true] at hk ⊢
        rw [B64.val_sub ih (hc.vo _), sub_eq_add_neg]
        exact round64_rep hk
      · have h3 : (b (k + 1)).c = (b k).c := le_antisymm (not_lt.mp h1) (not_lt.mp h2)
        simp only [h3, decide_true, decide_false, if_true, if_false, Bool.false_eq_true, lt_self_iff_false]
        rw [ih, add_zero]

/-- Half shares: volumes 3, 4 and 1/2 as multiples of 1/2. -/
example : ((OBV (F := B64)).data (item64 bars64)).map (List.map fun r => r.value.val) =
    .ok [.fin 0, .fin 4, .fin (7 / 2)] ∧
    (∀ (j : Nat) (b : Bar ℚ), bars64[j]? = some b → b.v = ([6, 8, 1] : List ℤ).getD j 0 * 2 ^ (-1 : ℤ)) := by
  refine ⟨by decide +kernel, fun j b h => ?_⟩
  match j, h with
  | 0, h => cases h; norm_num [bars64]
  | 1, h => cases h; norm_num [bars64]
  | 2, h => cases h; norm_num [bars64]

/-- Beyond 53 bits the line loses volume: after `2^53` shares, one share more is not seen. -/
theorem C105_obv_refuted : ((OBV (F := B64)).data (item64 [⟨1, 1, 1, 1, 0⟩, ⟨2, 2, 2, 2, 2 ^ 53⟩, ⟨3, 3, 3, 3, 1⟩])).map
    (List.map fun r => r.value.val) = .ok [.fin 0, .fin (2 ^ 53), .fin (2 ^ 53)] := by
  decide +kernel

/-! ## VWMA -/

/-- **C105 (Vwma).** If closes and volumes are integer multiples of powers of two, the volumes are not negative, and the
sums over `p + 1` candles of volume and of close times volume stay within 53 bits, the float64 line is the exact
volume-weighted mean, rounded once; it lies between closes of its window. -/
theorem C105_vwma_partial {p : Nat} {e f : ℤ} (hf : -1074 ≤ f) (hf' : f ≤ 970) (hef : -1074 ≤ e + f) (hef' : e + f ≤ 970)
    {k m : Nat → ℤ} {it : Item B64} {bs : List (Bar ℚ)} (hb : Holds64 it bs)
    (hkm : ∀ (j : Nat) (b : Bar ℚ), bs[j]? = some b → b.c = k j * 2 ^ e ∧ b.v = m j * 2 ^ f ∧ 0 ≤ m j)
    (hM : ∀ i < bs.length, ∑ j ∈ Finset.Ico (i - p) (i + 1), m j ≤ 2 ^ 53)
    (hS : ∀ i < bs.length, ∑ j ∈ Finset.Ico (i - p) (i + 1), |k j| * m j ≤ 2 ^ 53)
    {d : List (Rec B64)} (hd : (VWMA p).data it = .ok d) {i : Nat} {r : Rec B64} (hr : d[i]? = some r) :
    let V := winSum p i (col Bar.v bs)
    let w := winSum p i (col (fun b => b.c * b.v) bs) / V
    (V = 0 → r.value.val = .fin 0) ∧
    (0 < V → r.value.val = round64 w ∧ ∃ s, r.value.val = .fin s ∧ (∃ b ∈ window p i bs, b.c ≤ s) ∧
      ∃ b ∈ window p i bs, s ≤ b.c) := by
  intro V w
  obtain ⟨x, b, hx, hbs, hc, -⟩ := hb.cols
  obtain ⟨hi, -, rfl⟩ := at64 (VWMA.appends p).yields hx hd hr
  have hget : ∀ j < bs.length, bs[j]? = some (b j) := fun j hj => by
    conv_lhs => rw [hbs]
    exact tab_getElem?_lt hj
  have h2f : (0 : ℚ) < 2 ^ f := zpow_pos (by norm_num) f
  have eV : V = winSum p i fun j => (b j).v :=
    winSum_congr fun j hj => by rw [hbs]; exact col_tab _ b (by omega)
  have eC : winSum p i (col (fun b => b.c * b.v) bs) = winSum p i fun j => (b j).c * (b j).v :=
    winSum_congr fun j hj => by rw [hbs]; exact col_tab _ b (by omega)
  have m0 : ∀ j < bs.length, 0 ≤ m j := fun j hj => (hkm j _ (hget j hj)).2.2
  -- the two exact sums
  have s2 : (runSum p (Ind.vo x) (i + 1)).val = .fin V := by
    rw [runSum_exact hf hf' (k := m) (n := bs.length) (fun j hj => by rw [hc.vo, (hkm j _ (hget j hj)).2.1])
      (fun q hq => by
        rw [Finset.sum_congr rfl fun j hj => abs_of_nonneg (m0 j (by have := Finset.mem_Ico.mp hj; omega))]
        exact hM q hq) (i + 1) hi, eV, winSum, Int.cast_sum, Finset.sum_mul]
    congr 1
    exact Finset.sum_congr rfl fun j hj => by
      rw [(hkm j _ (hget j (by have := Finset.mem_Ico.mp hj; omega))).2.1]
  have hpr : ∀ j < bs.length, (b j).c * (b j).v = (k j * m j : ℤ) * 2 ^ (e + f) := fun j hj => by
    rw [(hkm j _ (hget j hj)).1, (hkm j _ (hget j hj)).2.1, zpow_add₀ (by norm_num)]
    push_cast
    ring
  have hab : ∀ j < bs.length, |k j * m j| = |k j| * m j := fun j hj => by rw [abs_mul, abs_of_nonneg (m0 j hj)]
  have hpv : ∀ j < bs.length, (Ind.cl x j *. Ind.vo x j).val = .fin ((k j * m j : ℤ) * 2 ^ (e + f)) := fun j hj => by
    rw [B64.val_mul (hc.cl j) (hc.vo j), hpr j hj]
    refine round64_rep (srep_scaled (le_trans ?_ (hS j hj)) hef hef')
    rw [hab j hj]
    exact Finset.single_le_sum (f := fun j => |k j| * m j)
      (fun q hq => mul_nonneg (abs_nonneg _) (m0 q (by have := Finset.mem_Ico.mp hq; omega)))
      (Finset.mem_Ico.mpr ⟨by omega, by omega⟩)
  have s1 : (runSum p (fun j => Ind.cl x j *. Ind.vo x j) (i + 1)).val =
      .fin (winSum p i fun j => (b j).c * (b j).v) := by
    rw [runSum_exact hef hef' (k := fun j => k j * m j) (n := bs.length) hpv
      (fun q hq => by
        rw [Finset.sum_congr rfl fun j hj => hab j (by have := Finset.mem_Ico.mp hj; omega)]
        exact hS q hq) (i + 1) hi, winSum, Int.cast_sum, Finset.sum_mul]
    congr 1
    exact Finset.sum_congr rfl fun j hj => (hpr j (by have := Finset.mem_Ico.mp hj; omega)).symm
  have v0 : ∀ j < bs.length, 0 ≤ (b j).v := fun j hj => by
    rw [(hkm j _ (hget j hj)).2.1]
    exact mul_nonneg (by exact_mod_cast m0 j hj) h2f.le
  constructor
  · intro hV
    have hz : ∀ j ∈ Finset.Ico (i + 1 - p) (i + 1), (b j).v = 0 := by
      rw [← Finset.sum_eq_zero_iff_of_nonneg fun j hj => v0 j (by have := Finset.mem_Ico.mp hj; omega)]
      rw [← hV, eV, winSum]
    have hz' : (winSum p i fun j => (b j).c * (b j).v) = 0 := by
      rw [winSum]
      exact Finset.sum_eq_zero fun j hj => by rw [hz j hj, mul_zero]
    rw [hz'] at s1
    rw [hV] at s2
    show (safeDiv (_ : B64) _).val = _
    rw [Int.toNat_natCast, safeDiv]
    have hn : isNaN (runSum p (fun j => Ind.cl x j *. Ind.vo x j) (i + 1) /. runSum p (Ind.vo x) (i + 1)) = true := by
      rw [B64.isNaN_val, B64.val_div_zero s1 s2, if_pos rfl]
    rw [hn, Bool.true_or, if_pos rfl, val_zero64]
  · intro hV
    have hd := B64.val_div s1 s2 hV.ne'
    have hne : (Finset.Ico (i + 1 - p) (i + 1)).Nonempty := by
      by_contra h
      rw [Finset.not_nonempty_iff_eq_empty] at h
      rw [eV, winSum, h, Finset.sum_empty] at hV
      exact lt_irrefl _ hV
    obtain ⟨j0, hj0, hlo⟩ := Finset.exists_min_image _ (fun j => (b j).c) hne
    obtain ⟨j1, hj1, hhi⟩ := Finset.exists_max_image _ (fun j => (b j).c) hne
    have hwb := weighted_bounds (p := p) (i := i) (w := fun j => (b j).v) (a := fun j => (b j).c)
      (lo := (b j0).c) (hi := (b j1).c)
      (fun j hj => v0 j (by omega)) (fun j h1 h2 => ⟨hlo j (Finset.mem_Ico.mpr ⟨by omega, by omega⟩),
        hhi j (Finset.mem_Ico.mpr ⟨by omega, by omega⟩)⟩) (by rw [← eV]; exact hV)
    rw [← eV] at hwb
    obtain ⟨s, hs, h0, h1⟩ := round64_between (B64.val_srep (hc.cl j0)) (B64.val_srep (hc.cl j1)) hwb.1 hwb.2
    have hval : (VWMA.out p x i).value.val = .fin s := by
      show (safeDiv (_ : B64) _).val = _
      rw [Int.toNat_natCast, safeDiv]
      rw [hs] at hd
      have hn : isNaN (runSum p (fun j => Ind.cl x j *. Ind.vo x j) (i + 1) /. runSum p (Ind.vo x) (i + 1)) = false := by
        rw [← Bool.not_eq_true, B64.isNaN_val, hd]; simp
      have hin : isInf (runSum p (fun j => Ind.cl x j *. Ind.vo x j) (i + 1) /. runSum p (Ind.vo x) (i + 1)) = false := by
        rw [← Bool.not_eq_true, B64.isInf_val, hd]; simp
      rw [hn, hin, Bool.or_false, if_neg (by simp), hd]
    have hmem : ∀ j ∈ Finset.Ico (i + 1 - p) (i + 1), b j ∈ window p i bs := fun j hj => by
      have := Finset.mem_Ico.mp hj
      exact mem_window.mpr ⟨j, by omega, by omega, hget j (by omega)⟩
    exact ⟨by rw [hval, ← hs, ← eC], s, hval, ⟨_, hmem j0 hj0, h0⟩, ⟨_, hmem j1 hj1, h1⟩⟩

/-- Quarter prices and half volumes. -/
example : ((VWMA 2).data (item64 bars64)).map (List.map fun r => r.value.val) =
    .ok [.fin (3 / 2), .fin (8685513567071671 / 2 ^ 52), .fin (2501999792983609 / 2 ^ 50)] := by
  decide +kernel

example {r : Rec B64} {d : List (Rec B64)} (hd : (VWMA (2 : Nat)).data (item64 bars64) = .ok d) (hr : d[2]? = some r) :
    r.value.val = round64 (10 / 4.5) := by
  have hV : winSum 2 2 (col Bar.v bars64) = 4.5 := by norm_num [winSum, Finset.sum_Ico_succ_top, col, bars64]
  have hS : winSum 2 2 (col (fun b => b.c * b.v) bars64) = 10 := by
    norm_num [winSum, Finset.sum_Ico_succ_top, col, bars64]
  have h := C105_vwma_partial (p := 2) (e := -2) (f := -1) (by norm_num) (by norm_num) (by norm_num) (by norm_num)
    (k := fun j => ([6, 9, 8] : List ℤ).getD j 0) (m := fun j => ([6, 8, 1] : List ℤ).getD j 0) bars64_holds
    (fun j b h => by
      match j, h with
      | 0, h => cases h; norm_num [bars64]
      | 1, h => cases h; norm_num [bars64]
      | 2, h => cases h; norm_num [bars64]) (by decide) (by decide) hd hr
  rw [hV, hS] at h
  exact (h.2 (by norm_num)).1

/-- Closes with decimals, all of them between 1.6 and 3.5, and volumes that come to an end: the value at the fifth
candle, whose window has no volume, is 38. The two running sums keep a rounding error each, and the quotient of the
errors is reported. -/
theorem C105_vwma_refuted : ((VWMA 2).data (item64 ([(3.2, 2.8), (1.7, 0.9), (3.5, 0.1), (1.6, 0), (2.1, 0), (2.2, 0)].map
    fun (c, v) => ⟨c, c, c, c, v⟩))).map (fun d => d[4]?.map fun r => r.value.val) = .ok (some (.fin 38)) := by
  decide +kernel

/-- The same for the Chaikin money flow, an index between -1 and 1: well-formed candles, value `93/16` at a candle whose
window has no volume. -/
theorem C105_cmf_refuted : ((CMF 2).data (item64
    ([(3.1999999999999997, 1.9999999999999998, 2.3, 0), (3.2, 3.1, 3.2, 2.4), (2.9, 2.1, 2.5, 0.4),
      (2.2, 1.1, 1.6, 0.1), (0.8, 0.39999999999999997, 0.6, 0), (3.7, 3.5, 3.5, 0)].map
    fun (h, l, c, v) => ⟨c, h, l, c, v⟩))).map (fun d => d[5]?.map fun r => r.value.val) =
    .ok (some (.fin (93 / 16))) := by
  decide +kernel

end Verif.Props
