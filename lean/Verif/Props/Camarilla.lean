import Verif.Props.Bands
import Verif.Ind.Osc
import Mathlib.Algebra.Order.Field.Basic
import Mathlib.Tactic.Linarith
import Mathlib.Tactic.NormNum

/-!
# Camarilla levels (C54)
-/

set_option linter.unusedSectionVars false

namespace Verif.Props
open Verif Verif.Klines Verif.Ta Verif.Ind GoFloat XF

variable {K : Type} [Field K] [LinearOrder K] [IsStrictOrderedRing K]

/-- C54: for every candle with `low <= high` the eight inner levels are numbers ordered from `Low4` to `High4` around the
close and symmetric about it; their distances to the close are 1.1 times the range divided by 12, 6, 4 and 2. The pivot
is the mean of high, low and close. When the low is not 0 the outer levels are `close * high / low` and its
continuation, mirrored at the close. -/
theorem C54_levels {p : Int} {it : Item (XF K)} {bs : List (Bar K)} (hb : Holds it bs)
    {d : List (Camarilla.Data (XF K))} (hd : (Camarilla p).data it = .ok d) :
    d.length = bs.length ∧ ∀ (i : Nat) (b : Bar K) (v : Camarilla.Data (XF K)), bs[i]? = some b → d[i]? = some v →
      b.l ≤ b.h →
      ∃ h1 h2 h3 h4 l1 l2 l3 l4 : K,
        v.h1 = .fin h1 ∧ v.h2 = .fin h2 ∧ v.h3 = .fin h3 ∧ v.h4 = .fin h4 ∧
        v.l1 = .fin l1 ∧ v.l2 = .fin l2 ∧ v.l3 = .fin l3 ∧ v.l4 = .fin l4 ∧
        (l4 ≤ l3 ∧ l3 ≤ l2 ∧ l2 ≤ l1 ∧ l1 ≤ b.c ∧ b.c ≤ h1 ∧ h1 ≤ h2 ∧ h2 ≤ h3 ∧ h3 ≤ h4) ∧
        (h1 - b.c = b.c - l1 ∧ h2 - b.c = b.c - l2 ∧ h3 - b.c = b.c - l3 ∧ h4 - b.c = b.c - l4) ∧
        (h1 - b.c = 11 / 10 * (b.h - b.l) / 12 ∧ h2 - b.c = 11 / 10 * (b.h - b.l) / 6 ∧
          h3 - b.c = 11 / 10 * (b.h - b.l) / 4 ∧ h4 - b.c = 11 / 10 * (b.h - b.l) / 2) ∧
        v.pivot = .fin ((b.h + b.l + b.c) / 3) ∧
        (b.l ≠ 0 → ∃ h5 h6 : K, v.h5 = .fin h5 ∧ v.h6 = .fin h6 ∧ h5 = b.c * b.h / b.l ∧
          h6 = h5 + 1168 / 1000 * (h5 - h4) ∧ v.l5 = .fin (2 * b.c - h5) ∧ v.l6 = .fin (2 * b.c - h6)) := by
  obtain ⟨x, b, hx, hbs, hc⟩ := hb.cols
  obtain ⟨-, rfl⟩ := yields_inv (Camarilla.makes p).yields hx hd
  refine ⟨tab_length _ _, fun i b' v hb' hv hlh => ?_⟩
  have hi : i < bs.length := (List.getElem?_eq_some_iff.mp hb').1
  rw [hbs, tab_getElem?_lt (by simpa using hi)] at hb'
  rw [tab_getElem?_lt hi] at hv
  cases hb'
  cases hv
  rw [Camarilla.out, hc.hi, hc.lo, hc.cl]
  have f2 : (fl 2 : XF K) = .fin 2 := by simp
  have f3 : (fl 3 : XF K) = .fin 3 := by simp
  have f4 : (fl 4 : XF K) = .fin 4 := by simp
  have f6 : (fl 6 : XF K) = .fin 6 := by simp
  have f12 : (fl 12 : XF K) = .fin 12 := by simp
  have h2 : (2 : K) ≠ 0 := by norm_num
  have h3 : (3 : K) ≠ 0 := by norm_num
  have h4 : (4 : K) ≠ 0 := by norm_num
  have h6 : (6 : K) ≠ 0 := by norm_num
  have h12 : (12 : K) ≠ 0 := by norm_num
  have e1 : ((11 / 10 : ℚ) : K) = 11 / 10 := by norm_num
  have e2 : ((1168 / 1000 : ℚ) : K) = 1168 / 1000 := by norm_num
  simp only [finF]
  generalize b i = q at *
  obtain ⟨o, h, l, c, w⟩ := q
  simp only [getCamarilla, f2, f3, f4, f6, f12, add_fin, sub_fin, mul_fin, lit_fin, div_fin h2, div_fin h3,
    div_fin h4, div_fin h6, div_fin h12, e1, e2, fin_inj]
  simp only at hlh
  refine ⟨_, _, _, _, _, _, _, _, rfl, rfl, rfl, rfl, rfl, rfl, rfl, rfl, ?_, ?_, ?_, trivial, fun hl => ?_⟩
  · refine ⟨?_, ?_, ?_, ?_, ?_, ?_, ?_, ?_⟩ <;> linarith
  · refine ⟨?_, ?_, ?_, ?_⟩ <;> ring
  · refine ⟨?_, ?_, ?_, ?_⟩ <;> ring
  · simp only [div_fin hl, mul_fin, sub_fin, add_fin, fin_inj]
    refine ⟨_, _, rfl, rfl, by ring, rfl, by ring, by ring⟩

example : ∃ v, (((Camarilla 3).data (barItem ([⟨10, 24, 12, 18, 0⟩] : List (Bar ℚ)))).toOption.getD [])[0]? = some v ∧
    (v.l4, v.l1, v.h1, v.h4, v.h5) =
      (.fin (18 - 66/10), .fin (18 - 11/10), .fin (18 + 11/10), .fin (18 + 66/10), .fin 36) := by
  refine ⟨_, rfl, by decide +kernel⟩

end Verif.Props
