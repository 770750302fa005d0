import Verif.Props.Stable
import Verif.Props.VolumeLines
import Verif.Props.Percent
import Mathlib.Algebra.Order.BigOperators.Ring.Finset

/-!
# Two data feeds that nearly agree: weighted averages, Bollinger bands, percentages, and lines that jump (C130)
-/

set_option linter.unusedSectionVars false

namespace Verif.Props
open Verif Verif.Klines Verif.Ta Verif.Ind GoFloat XF

section
variable {K : Type} [Field K] [LinearOrder K] [IsStrictOrderedRing K]

/-- **C130** The volume weighted average changes by at most `e` if no volume is negative. -/
theorem C130_vwma {p : Nat} {e : K} {bs bs' : List (Bar K)} (hn : NearBars e bs bs') (hv : ∀ b ∈ bs, 0 ≤ b.v) {it it' : Item (XF K)}
    (hb : Holds it bs) (hb' : Holds it' bs') {d d' : List (Rec (XF K))} (hd : (VWMA p).data it = .ok d)
    (hd' : (VWMA p).data it' = .ok d') {i : Nat} {r r' : Rec (XF K)} (hr : d[i]? = some r) (hr' : d'[i]? = some r') :
    ∃ u v, r.value = .fin u ∧ r'.value = .fin v ∧ |u - v| ≤ e := by
  refine ⟨_, _, (C47_vwma hb hd hr).1, (C47_vwma hb' hd' hr').1, ?_⟩
  have hi := len_full (VWMA.appends p).yields hb hd hr
  obtain ⟨-, -, -, hc, hvv⟩ := hn.col hi
  rw [← winSum_congr hvv]
  split
  · rw [sub_self, abs_zero]; exact hc.nonneg
  · rename_i hV
    have hvi : ∀ j ≤ i, 0 ≤ col Bar.v bs j := fun j hj => by
      rw [col, List.getElem?_eq_getElem (show j < bs.length by omega)]
      exact hv _ (List.getElem_mem _)
    have hV' : 0 < winSum p i (col Bar.v bs) := lt_of_le_of_ne (winSum_nonneg hvi) (Ne.symm hV)
    have split : ∀ (cs : List (Bar K)) (j : Nat), col (fun b => b.c * b.v) cs j = col Bar.c cs j * col Bar.v cs j := by
      intro cs j
      rw [col, col, col]
      cases cs[j]? <;> simp
    rw [← sub_div, abs_div, abs_of_pos hV', div_le_iff₀ hV', winSum, winSum, winSum, ← Finset.sum_sub_distrib, Finset.mul_sum]
    refine (Finset.abs_sum_le_sum_abs _ _).trans (Finset.sum_le_sum fun j hj => ?_)
    have hj : j ≤ i := by have := Finset.mem_Ico.mp hj; omega
    rw [split, split, ← hvv j hj, ← sub_mul, abs_mul, abs_of_nonneg (hvi j hj)]
    exact mul_le_mul_of_nonneg_right (hc j hj) (hvi j hj)

/-- **C130** The stochastic changes by at most `400 e / R` percentage points if the range of each window is at least `R`. -/
theorem C130_stochastic {p : Nat} (hp : 1 ≤ p) {e R : K} (hR : 0 < R) {bs bs' : List (Bar K)} (hn : NearBars e bs bs')
    (hw : ∀ b ∈ bs, b.l ≤ b.c ∧ b.c ≤ b.h) {it it' : Item (XF K)} (hb : Holds it bs) (hb' : Holds it' bs')
    {d d' : List (KD (XF K))} (hd : (Stoch p).data it = .ok d) (hd' : (Stoch p).data it' = .ok d') {i : Nat} {r r' : KD (XF K)}
    (hr : d[i]? = some r) (hr' : d'[i]? = some r') (hwide : ∃ a ∈ window p i bs, ∃ b ∈ window p i bs, R ≤ a.h - b.l)
    (hwide' : ∃ a ∈ window p i bs', ∃ b ∈ window p i bs', R ≤ a.h - b.l) :
    ∃ u v, r.k = .fin u ∧ r'.k = .fin v ∧ |u - v| ≤ 400 * e / R := by
  have hi := len_full (Stoch.appends p).yields hb hd hr
  have hi' := len_full (Stoch.appends p).yields hb' hd' hr'
  have hbi := List.getElem?_eq_getElem hi
  have hbi' := List.getElem?_eq_getElem hi'
  obtain ⟨H, L, hH, hL, ek⟩ := C44_stochastic_exact hp hb hd hr hbi
  obtain ⟨H', L', hH', hL', ek'⟩ := C44_stochastic_exact hp hb' hd' hr' hbi'
  have g1 := abs_le.mp (near_greatest hn.1 (fun j a b ha hb => (hn.2 j a b ha hb).2.1) hH hH')
  have g2 := abs_le.mp (near_least hn.1 (fun j a b ha hb => (hn.2 j a b ha hb).2.2.1) hL hL')
  have g3 := abs_le.mp (hn.2 i _ _ hbi hbi').2.2.2.1
  have he : 0 ≤ e := by linarith [g1.1, g1.2]
  have w1 : R ≤ H - L := by
    obtain ⟨a, ha, b, hb, h⟩ := hwide
    have := hH.2 ⟨a, ha, rfl⟩
    have := hL.2 ⟨b, hb, rfl⟩
    linarith
  have w2 : R ≤ H' - L' := by
    obtain ⟨a, ha, b, hb, h⟩ := hwide'
    have := hH'.2 ⟨a, ha, rfl⟩
    have := hL'.2 ⟨b, hb, rfl⟩
    linarith
  have hc1 : L ≤ bs[i].c := (hL.2 ⟨bs[i], mem_window.mpr ⟨i, by omega, le_rfl, hbi⟩, rfl⟩).trans (hw _ (List.getElem_mem _)).1
  have hc2 : bs[i].c ≤ H := (hw _ (List.getElem_mem _)).2.trans (hH.2 ⟨bs[i], mem_window.mpr ⟨i, by omega, le_rfl, hbi⟩, rfl⟩)
  rw [if_neg (by intro h; rw [h, sub_self] at w1; linarith)] at ek
  rw [if_neg (by intro h; rw [h, sub_self] at w2; linarith)] at ek'
  refine ⟨_, _, ek, ek', ?_⟩
  generalize bs[i].c = c at *
  generalize bs'[i].c = c' at *
  have hD : 0 < H - L := by linarith
  have hD' : 0 < H' - L' := by linarith
  have hq0 : 0 ≤ (c - L) / (H - L) := div_nonneg (by linarith) hD.le
  have hq1 : (c - L) / (H - L) ≤ 1 := by rw [div_le_one hD]; linarith
  have key : 100 * (c - L) / (H - L) - 100 * (c' - L') / (H' - L') =
      100 * (((c - L) / (H - L)) * ((H' - L') - (H - L)) + ((c - L) - (c' - L'))) / (H' - L') := by
    field_simp
    ring
  rw [key, abs_div, abs_of_pos hD', div_le_div_iff₀ hD' hR, abs_mul, abs_of_pos (by norm_num : (0 : K) < 100)]
  generalize (c - L) / (H - L) = q at hq0 hq1
  have b1 : |(H' - L') - (H - L)| ≤ 2 * e := abs_le.mpr ⟨by linarith [g1.2, g2.1], by linarith [g1.1, g2.2]⟩
  have b2 : |(c - L) - (c' - L')| ≤ 2 * e := abs_le.mpr ⟨by linarith [g3.1, g2.2], by linarith [g3.2, g2.1]⟩
  have b3 : |q * ((H' - L') - (H - L)) + ((c - L) - (c' - L'))| ≤ 4 * e := by
    refine (abs_add_le _ _).trans ?_
    rw [abs_mul, abs_of_nonneg hq0]
    have := mul_le_mul hq1 b1 (abs_nonneg _) zero_le_one
    linarith
  calc 100 * |q * ((H' - L') - (H - L)) + ((c - L) - (c' - L'))| * R ≤ 100 * (4 * e) * R :=
        mul_le_mul_of_nonneg_right (by linarith) hR.le
    _ ≤ 400 * e * (H' - L') := by
        rw [show 100 * (4 * e) = 400 * e by ring]
        exact mul_le_mul_of_nonneg_left w2 (by linarith)

/-- However small `e` is, there are two feeds that differ by at most `e` on which the line differs by `J` at some candle. -/
def JumpLine (J : K) (I : Indicator (XF K)) (f : I.D → XF K) : Prop :=
  ∀ e : K, 0 < e → ∃ (bs bs' : List (Bar K)) (d d' : List I.D) (i : Nat) (r r' : I.D) (u v : K), NearBars e bs bs' ∧
    (∀ b ∈ bs ++ bs', b.WF ∧ 0 < b.v) ∧ I.data (barItem bs) = .ok d ∧ I.data (barItem bs') = .ok d' ∧ d[i]? = some r ∧
    d'[i]? = some r' ∧ f r = .fin u ∧ f r' = .fin v ∧ |u - v| = J

theorem jump_of {I : Indicator (XF K)} {ok} {G} (hy : Yields I ok G) {f : I.D → XF K} {J : K}
    (h : ∀ e : K, 0 < e → ∃ (bs bs' : List (Bar K)) (i : Nat) (u v : K), NearBars e bs bs' ∧ (∀ b ∈ bs ++ bs', b.WF ∧ 0 < b.v) ∧
      ok bs.length ∧ ok bs'.length ∧ i < bs.length ∧ |u - v| = J ∧
      (∀ d r, I.data (barItem bs) = .ok d → d[i]? = some r → f r = .fin u) ∧
      (∀ d r, I.data (barItem bs') = .ok d → d[i]? = some r → f r = .fin v)) : JumpLine J I f := by
  intro e he
  obtain ⟨bs, bs', i, u, v, hn, hwf, ok1, ok2, hi, hJ, h1, h2⟩ := h e he
  obtain ⟨x, hx, -⟩ := (holds_barItem bs).full
  obtain ⟨x', hx', -⟩ := (holds_barItem bs').full
  have d1 := (hy _ _ x hx).1 ok1
  have d2 := (hy _ _ x' hx').1 ok2
  have i1 := tab_getElem?_lt (x := G x) hi
  have i2 := tab_getElem?_lt (x := G x') (show i < bs'.length by rw [← hn.1]; exact hi)
  exact ⟨bs, bs', _, _, i, _, _, u, v, hn, hwf, d1, d2, i1, i2, h1 _ _ d1 i1, h2 _ _ d2 i2, hJ⟩

theorem near_one {e : K} (he : 0 < e) : NearBars e [(⟨0, e, 0, 0, 1⟩ : Bar K)] [⟨0, e, 0, e, 1⟩] := by
  refine ⟨rfl, fun i b b' h1 h2 => ?_⟩
  match i with
  | 0 =>
    obtain rfl := Option.some.inj h1
    obtain rfl := Option.some.inj h2
    simp [he.le, abs_of_pos he]
  | i + 1 => simp at h1

theorem wf_one {e : K} (he : 0 < e) : ∀ b ∈ [(⟨0, e, 0, 0, 1⟩ : Bar K)] ++ [⟨0, e, 0, e, 1⟩], b.WF ∧ 0 < b.v := by
  intro b hb
  simp only [List.cons_append, List.nil_append, List.mem_cons, List.not_mem_nil, or_false] at hb
  rcases hb with rfl | rfl
  · simp [Bar.WF, he.le]
  · simp [Bar.WF, he.le]

/-- **C130** On thin ranges the percentages jump: an arbitrarily small error can move the stochastic and Williams from one end of the
scale to the other, Chaikin money flow from -1 to 1, and the accumulation line and on-balance volume by twice the volume of a candle. -/
theorem C130_jumps {p : Nat} (hp : 1 ≤ p) :
    JumpLine (K := K) 100 (Stoch p).toIndicator KD.k ∧ JumpLine (K := K) 100 (Williams p).toIndicator Rec.value ∧
    JumpLine (K := K) 2 (CMF p) Rec.value ∧ JumpLine (K := K) 2 AD Rec.value ∧ JumpLine (K := K) 2 OBV Rec.value := by
  have hwin : ∀ b : Bar K, window p 0 [b] = [b] := fun b => by
    obtain ⟨q, rfl⟩ : ∃ q, p = q + 1 := ⟨p - 1, by omega⟩
    simp [window]
  have hu : ∀ {f : Bar K → K} {b : Bar K} {H : K}, IsGreatest {v | ∃ q ∈ window p 0 [b], f q = v} H → H = f b := by
    intro f b H h
    rw [hwin] at h
    obtain ⟨q, hq, rfl⟩ := h.1
    rw [List.mem_singleton.mp hq]
  have hl : ∀ {f : Bar K → K} {b : Bar K} {H : K}, IsLeast {v | ∃ q ∈ window p 0 [b], f q = v} H → H = f b := by
    intro f b H h
    rw [hwin] at h
    obtain ⟨q, hq, rfl⟩ := h.1
    rw [List.mem_singleton.mp hq]
  have hw1 : ∀ g : Nat → K, winSum p 0 g = g 0 := fun g => by
    rw [winSum, show 0 + 1 - p = 0 by omega]
    simp
  refine ⟨?_, ?_, ?_, ?_, ?_⟩
  · refine jump_of (Stoch.appends p).yields fun e he => ⟨[⟨0, e, 0, 0, 1⟩], [⟨0, e, 0, e, 1⟩], 0, 0, 100, near_one he, wf_one he,
      Or.inl (by omega), Or.inl (by omega), by simp, by norm_num, fun d r hd hr => ?_, fun d r hd hr => ?_⟩
    · obtain ⟨H, L, hH, hL, e1⟩ := C44_stochastic_exact hp (holds_barItem _) hd hr rfl
      rw [hu hH, hl hL] at e1
      rw [e1]
      simp
    · obtain ⟨H, L, hH, hL, e1⟩ := C44_stochastic_exact hp (holds_barItem _) hd hr rfl
      rw [hu hH, hl hL] at e1
      rw [e1]
      simp [he.ne']
  · refine jump_of (Williams.appends p).yields fun e he => ⟨[⟨0, e, 0, 0, 1⟩], [⟨0, e, 0, e, 1⟩], 0, -100, 0, near_one he, wf_one he,
      Or.inl (by omega), Or.inl (by omega), by simp, by norm_num, fun d r hd hr => ?_, fun d r hd hr => ?_⟩
    · obtain ⟨H, L, hH, hL, e1, -⟩ := C44_williams_range hp (holds_barItem _) hd hr rfl ⟨le_rfl, he.le⟩
      rw [hu hH, hl hL] at e1
      obtain ⟨v, h1, h2, -⟩ := e1 he.ne'
      rw [h1, h2]
      simp [neg_div, he.ne']
    · obtain ⟨H, L, hH, hL, e1, -⟩ := C44_williams_range hp (holds_barItem _) hd hr rfl ⟨he.le, le_rfl⟩
      rw [hu hH, hl hL] at e1
      obtain ⟨v, h1, h2, -⟩ := e1 he.ne'
      rw [h1, h2]
      simp
  · refine jump_of (CMF.appends p).yields fun e he => ⟨[⟨0, e, 0, 0, 1⟩], [⟨0, e, 0, e, 1⟩], 0, -1, 1, near_one he, wf_one he,
      Or.inl (by omega), Or.inl (by omega), by simp, by norm_num, fun d r hd hr => ?_, fun d r hd hr => ?_⟩
    · rw [(C47_cmf (holds_barItem _) hd hr).1]
      simp [hw1, col, he.ne']
    · rw [(C47_cmf (holds_barItem _) hd hr).1]
      simp [hw1, col, he.ne']
  · refine jump_of AD.appends.yields fun e he => ⟨[⟨0, e, 0, 0, 1⟩], [⟨0, e, 0, e, 1⟩], 0, -1, 1, near_one he, wf_one he,
      trivial, trivial, by simp, by norm_num, fun d r hd hr => ?_, fun d r hd hr => ?_⟩
    · rw [C80_accumulation_distribution (holds_barItem _) (by simp [he.le]) hd hr]
      simp [closeLocation, col, he.ne']
    · rw [C80_accumulation_distribution (holds_barItem _) (by simp [he.le]) hd hr]
      simp [closeLocation, col, he.ne']
  · refine jump_of OBV.grows.yields fun e he => ⟨[⟨0, e, 0, e / 2, 1⟩, ⟨0, e, 0, 0, 1⟩], [⟨0, e, 0, e / 2, 1⟩, ⟨0, e, 0, e, 1⟩], 1, -1, 1,
      ⟨rfl, fun i b b' h1 h2 => ?_⟩, ?_, trivial, trivial, by simp, by norm_num, fun d r hd hr => ?_, fun d r hd hr => ?_⟩
    · match i with
      | 0 =>
        obtain rfl := Option.some.inj h1
        obtain rfl := Option.some.inj h2
        simp [he.le]
      | 1 =>
        obtain rfl := Option.some.inj h1
        obtain rfl := Option.some.inj h2
        simp [he.le, abs_of_pos he]
      | i + 2 => simp at h1
    · intro b hb
      have h2 : 0 ≤ e / 2 := by linarith
      have h3 : e / 2 ≤ e := by linarith
      simp only [List.cons_append, List.nil_append, List.mem_cons, List.not_mem_nil, or_false] at hb
      rcases hb with rfl | rfl | rfl | rfl <;> simp [Bar.WF, he.le, h2, h3]
    · rw [C50_obv_sum (holds_barItem _) hd hr]
      simp [signedVolume, col, he, not_lt.mpr (show (0 : K) ≤ e / 2 by linarith)]
    · rw [C50_obv_sum (holds_barItem _) hd hr]
      simp [signedVolume, col, he]

end

theorem minkowski (n : Nat) (y z : Nat → ℝ) :
    √(∑ j ∈ Finset.range n, (y j + z j) ^ 2) ≤ √(∑ j ∈ Finset.range n, y j ^ 2) + √(∑ j ∈ Finset.range n, z j ^ 2) := by
  have hy : 0 ≤ ∑ j ∈ Finset.range n, y j ^ 2 := Finset.sum_nonneg fun j _ => sq_nonneg _
  have hz : 0 ≤ ∑ j ∈ Finset.range n, z j ^ 2 := Finset.sum_nonneg fun j _ => sq_nonneg _
  have cs : ∑ j ∈ Finset.range n, y j * z j ≤ √(∑ j ∈ Finset.range n, y j ^ 2) * √(∑ j ∈ Finset.range n, z j ^ 2) := by
    rw [← Real.sqrt_mul hy]
    exact Real.le_sqrt_of_sq_le (Finset.sum_mul_sq_le_sq_mul_sq _ y z)
  rw [Real.sqrt_le_left (by positivity)]
  have e1 := Real.sq_sqrt hy
  have e2 := Real.sq_sqrt hz
  have e3 : ∑ j ∈ Finset.range n, (y j + z j) ^ 2 = ∑ j ∈ Finset.range n, y j ^ 2 + 2 * ∑ j ∈ Finset.range n, y j * z j +
      ∑ j ∈ Finset.range n, z j ^ 2 := by
    rw [Finset.mul_sum, ← Finset.sum_add_distrib, ← Finset.sum_add_distrib]
    exact Finset.sum_congr rfl fun j _ => by ring
  rw [e3, add_sq, e1, e2]
  linarith

/-- The standard deviation of one list exceeds that of another by at most the greatest difference of the entries. -/
theorem dev_half {n : Nat} {e : ℝ} (he : 0 ≤ e) {a b : Nat → ℝ} (h : ∀ j < n, |a j - b j| ≤ e) :
    √(pvar (tab n a)) ≤ √(pvar (tab n b)) + e := by
  rcases Nat.eq_zero_or_pos n with rfl | hn
  · simpa [pvar, tab] using he
  have hn' : (0 : ℝ) < n := by exact_mod_cast hn
  rw [pvar_tab, pvar_tab]
  set A := (∑ j ∈ Finset.range n, a j) / (n : ℝ) with hA
  set B := (∑ j ∈ Finset.range n, b j) / (n : ℝ) with hB
  have hm := minkowski n (fun j => b j - B) (fun j => (a j - b j) - (A - B))
  have e1 : ∑ j ∈ Finset.range n, ((b j - B) + ((a j - b j) - (A - B))) ^ 2 = ∑ j ∈ Finset.range n, (a j - A) ^ 2 :=
    Finset.sum_congr rfl fun j _ => by ring
  beta_reduce at hm
  rw [e1] at hm
  have e2 : ∑ j ∈ Finset.range n, (a j - b j) = n * (A - B) := by
    rw [Finset.sum_sub_distrib, hA, hB]
    field_simp
  have e3 : ∑ j ∈ Finset.range n, ((a j - b j) - (A - B)) ^ 2 ≤ n * e ^ 2 := by
    have e4 : ∑ j ∈ Finset.range n, ((a j - b j) - (A - B)) ^ 2 =
        ∑ j ∈ Finset.range n, (a j - b j) ^ 2 - n * (A - B) ^ 2 := by
      have : ∀ j ∈ Finset.range n, ((a j - b j) - (A - B)) ^ 2 = (a j - b j) ^ 2 - 2 * (A - B) * (a j - b j) + (A - B) ^ 2 :=
        fun j _ => by ring
      rw [Finset.sum_congr rfl this, Finset.sum_add_distrib, Finset.sum_sub_distrib, ← Finset.mul_sum, e2, Finset.sum_const,
        Finset.card_range, nsmul_eq_mul]
      ring
    have e5 : ∑ j ∈ Finset.range n, (a j - b j) ^ 2 ≤ n * e ^ 2 := by
      refine (Finset.sum_le_card_nsmul _ _ (e ^ 2) fun j hj => ?_).trans (by rw [Finset.card_range, nsmul_eq_mul])
      rw [← sq_abs]
      exact pow_le_pow_left₀ (abs_nonneg _) (h j (Finset.mem_range.mp hj)) 2
    have : 0 ≤ (n : ℝ) * (A - B) ^ 2 := by positivity
    linarith
  have e6 : √(∑ j ∈ Finset.range n, ((a j - b j) - (A - B)) ^ 2) ≤ √(n : ℝ) * e := by
    refine (Real.sqrt_le_sqrt e3).trans ?_
    rw [Real.sqrt_mul hn'.le, Real.sqrt_sq he]
  rw [Real.sqrt_div' _ hn'.le, Real.sqrt_div' _ hn'.le, div_le_iff₀ (Real.sqrt_pos.mpr hn'), add_mul,
    div_mul_cancel₀ _ (Real.sqrt_pos.mpr hn').ne']
  linarith

/-- **C130** Bollinger: an error of `e` changes the middle line and the deviation by at most `e`, each band by at most `2 e`. -/
theorem C130_bollinger {p : Nat} {k : Int} : StableLine 1 (Boll (F := XF ℝ) p k).toIndicator Boll.Data.middle ∧
    StableLine 1 (Boll (F := XF ℝ) p k).toIndicator Boll.Data.md ∧ StableLine 2 (Boll (F := XF ℝ) p k).toIndicator Boll.Data.upper ∧
    StableLine 2 (Boll (F := XF ℝ) p k).toIndicator Boll.Data.lower := by
  have key : ∀ (e : ℝ) (bs bs' : List (Bar ℝ)), NearBars e bs bs' → ∀ i < bs.length, 0 < p →
      |mean (window p i (bs.map Bar.c)) - mean (window p i (bs'.map Bar.c))| ≤ e ∧
      |(if i + 1 < p then 0 else √(pvar (window p i (bs.map Bar.c)))) - (if i + 1 < p then 0 else √(pvar (window p i (bs'.map Bar.c))))| ≤ e := by
    intro e bs bs' hn i hi hp
    have hc := (hn.col hi).2.2.2.1
    have ht : ∀ cs : List (Bar ℝ), cs.map Bar.c = tab cs.length (col Bar.c cs) := fun cs => by
      refine List.ext_getElem? fun j => ?_
      by_cases hj : j < cs.length
      · rw [tab_getElem?_lt hj, List.getElem?_map, col, List.getElem?_eq_getElem hj]; rfl
      · rw [List.getElem?_eq_none (by simp; omega), List.getElem?_eq_none (by simp; omega)]
    rw [ht, ht, window_tab _ hi, window_tab _ (show i < bs'.length by rw [← hn.1]; exact hi)]
    have hs : ∀ j < i + 1 - (i + 1 - p), |col Bar.c bs (i + 1 - p + j) - col Bar.c bs' (i + 1 - p + j)| ≤ e :=
      fun j hj => hc _ (by omega)
    refine ⟨?_, ?_⟩
    · have hn' : (0 : ℝ) < ((i + 1 - (i + 1 - p) : Nat) : ℝ) := by
        have : 0 < i + 1 - (i + 1 - p) := by omega
        exact_mod_cast this
      rw [mean, mean, sum_tab, sum_tab, tab_length, tab_length, ← sub_div, abs_div, abs_of_pos hn', div_le_iff₀ hn',
        ← Finset.sum_sub_distrib]
      refine (Finset.abs_sum_le_sum_abs _ _).trans ?_
      refine (Finset.sum_le_card_nsmul _ _ e fun j hj => hs j (Finset.mem_range.mp hj)).trans ?_
      rw [Finset.card_range, nsmul_eq_mul, mul_comm]
    · split
      · rw [sub_self, abs_zero]; exact hc.nonneg
      · have g1 := dev_half hc.nonneg hs
        have g2 := dev_half hc.nonneg fun j hj => by rw [abs_sub_comm]; exact hs j hj
        exact abs_le.mpr ⟨by linarith, by linarith⟩
  have hp : ∀ (bs : List (Bar ℝ)) (it : Item (XF ℝ)) (d : List (Boll.Data (XF ℝ))), Holds it bs → (Boll p k).data it = .ok d →
      ∀ (i : Nat) r, d[i]? = some r → i < bs.length ∧ 0 < p := fun bs it d hb hd i r hr => by
    obtain ⟨x, hx, -⟩ := hb.full
    obtain ⟨hi, hok, -⟩ := at_full (Boll.makes p k).yields hx hd hr
    exact ⟨hi, by rcases hok with h | h <;> omega⟩
  refine ⟨?_, ?_, ?_, ?_⟩
  all_goals
    intro e bs bs' it it' d d' hn hb hb' hd hd' i r r' hr hr'
    obtain ⟨hi, hp⟩ := hp bs it d hb hd i r hr
    obtain ⟨k1, k2⟩ := key e bs bs' hn i hi hp
    obtain ⟨e1, e2, e3, e4, -⟩ := C48_boll hb hd hr
    obtain ⟨e1', e2', e3', e4', -⟩ := C48_boll hb' hd' hr'
    have g1 := abs_le.mp k1
    have g2 := abs_le.mp k2
  · exact ⟨_, _, e1, e1', by rwa [one_mul]⟩
  · exact ⟨_, _, e2, e2', by rwa [one_mul]⟩
  · exact ⟨_, _, e3, e3', abs_le.mpr ⟨by linarith [g1.1, g2.1], by linarith [g1.2, g2.2]⟩⟩
  · exact ⟨_, _, e4, e4', abs_le.mpr ⟨by linarith [g1.1, g2.2], by linarith [g1.2, g2.1]⟩⟩

/-- Two feeds of three candles that differ by at most 1/100. -/
def feedA : List (Bar ℚ) := [⟨1, 3, 1, 2, 10⟩, ⟨2, 4, 1, 3, 20⟩, ⟨3, 6, 2, 5, 5⟩]
def feedB : List (Bar ℚ) := [⟨1, 301 / 100, 1, 2, 10⟩, ⟨2, 4, 1, 301 / 100, 20⟩, ⟨3, 6, 199 / 100, 499 / 100, 5⟩]

theorem near_feeds : NearBars (1 / 100) feedA feedB := by
  refine ⟨rfl, fun i b b' h1 h2 => ?_⟩
  match i with
  | 0 | 1 | 2 =>
    obtain rfl := Option.some.inj h1
    obtain rfl := Option.some.inj h2
    decide +kernel
  | i + 3 => simp [feedA] at h1

/-- The hypotheses of the theorems above hold for `feedA` and `feedB`, and the stochastic of their last candle differs by less
than 400/100/5 = 0.8 percentage points. -/
example : ∃ d d' r r', (Stoch 3).data (barItem feedA) = .ok d ∧ (Stoch 3).data (barItem feedB) = .ok d' ∧ d[2]? = some r ∧
    d'[2]? = some r' ∧ ∃ u v, r.k = .fin u ∧ r'.k = .fin v ∧ |u - v| ≤ 400 * (1 / 100) / (5 : ℚ) := by
  obtain ⟨x, hx, -⟩ := (holds_barItem feedA).full
  obtain ⟨x', hx', -⟩ := (holds_barItem feedB).full
  have d1 := ((Stoch.appends 3).yields _ _ x hx).1 (Or.inl (by omega))
  have d2 := ((Stoch.appends 3).yields _ _ x' hx').1 (Or.inl (by omega))
  have i1 := tab_getElem?_lt (x := Stoch.out 3 x) (show 2 < feedA.length by decide)
  have i2 := tab_getElem?_lt (x := Stoch.out 3 x') (show 2 < feedB.length by decide)
  exact ⟨_, _, _, _, d1, d2, i1, i2, C130_stochastic (p := 3) (by omega) (by norm_num) near_feeds (by decide +kernel) (holds_barItem _)
    (holds_barItem _) d1 d2 i1 i2 (by decide +kernel) (by decide +kernel)⟩

example : ∃ d d' r r', (VWMA 2).data (barItem feedA) = .ok d ∧ (VWMA 2).data (barItem feedB) = .ok d' ∧ d[2]? = some r ∧
    d'[2]? = some r' ∧ ∃ u v : ℚ, r.value = .fin u ∧ r'.value = .fin v ∧ |u - v| ≤ 1 / 100 := by
  obtain ⟨x, hx, -⟩ := (holds_barItem feedA).full
  obtain ⟨x', hx', -⟩ := (holds_barItem feedB).full
  have d1 := ((VWMA.appends 2).yields _ _ x hx).1 (Or.inl (by omega))
  have d2 := ((VWMA.appends 2).yields _ _ x' hx').1 (Or.inl (by omega))
  have i1 := tab_getElem?_lt (x := VWMA.out 2 x) (show 2 < feedA.length by decide)
  have i2 := tab_getElem?_lt (x := VWMA.out 2 x') (show 2 < feedB.length by decide)
  exact ⟨_, _, _, _, d1, d2, i1, i2, C130_vwma near_feeds (by decide +kernel) (holds_barItem _) (holds_barItem _) d1 d2 i1 i2⟩

/-- The usual periods. -/
example : StableLine (K := ℚ) 3 (DEMA 9) Rec.value ∧ StableLine (K := ℚ) 2 (APO 12 26).toIndicator Rec.value :=
  ⟨(C130_averages (p := 9) (by omega)).2.2.2.2, (C130_differences (p := 12) (q := 26) (s := 1) (by omega) (by omega) le_rfl).1⟩

end Verif.Props
