import Verif.Props.Trailing

/-!
# The chandelier exits of `Atr` (C90)

Exact arithmetic.
-/

set_option linter.unusedSectionVars false

namespace Verif.Props
open Verif Verif.Klines Verif.Ta Verif.Ind GoFloat XF

variable {F : Type} [GoFloat F] {K : Type} [Field K] [LinearOrder K] [IsStrictOrderedRing K]

/-- The exits in closed form. -/
theorem chandelier_tab {p : Nat} (hp : 0 < p) {it : Item F} {n : Nat} {x : Nat → Candle F} (hx : it.candles = tab n x)
    (f : Nat → ATR.Data F) : ATR.ChandelierExit p it (tab n f) =
      .ok (tab n fun i => maxF p (hi x) i -. ((f i).atr *. fl 3), tab n fun i => minF p (lo x) i +. ((f i).atr *. fl 3)) := by
  simp only [ATR.ChandelierExit, GetOHLC_tab hx, ohlcOf, ok_bind, Max_tab hp, Min_tab hp, tab_length]
  rw [makeLoop_tab fun i => maxF p (hi x) i -. ((f i).atr *. fl 3)]
  · rw [ok_bind, makeLoop_tab fun i => minF p (lo x) i +. ((f i).atr *. fl 3)]
    · rfl
    · intro k hk
      simp only [idx_tab hk, ok_bind]
      rfl
  · intro k hk
    simp only [idx_tab hk, ok_bind]
    rfl

/-- **C90**: `ChandelierExit(p)` of a new `Atr` returns one pair per candle: the long exit is the highest
high of the last `p` candles less three times the ATR of that candle, the short exit the lowest low of these candles plus
three times the ATR. For candles with `low <= high` the ATR is not negative: the long exit is never above the highest
high, the short exit never below the lowest low. The period of the window is independent of that of the ATR. -/
theorem C90_chandelier {q p : Nat} (hq : 0 < q) (hp : 0 < p) {it : Item (XF K)} {bs : List (Bar K)} (hb : Holds it bs) :
    ∃ (d : List (ATR.Data (XF K))) (long short : List (XF K)), (ATR q).data it = .ok d ∧
      (ATR q).get (fun s d => ATR.ChandelierExit p s d) it = .ok (long, short) ∧
      d.length = bs.length ∧ long.length = bs.length ∧ short.length = bs.length ∧
      ∀ i < bs.length, ∃ (r : ATR.Data (XF K)) (a H L : K), d[i]? = some r ∧ r.atr = .fin a ∧
        IsGreatest {v | ∃ b ∈ window p i bs, b.h = v} H ∧ IsLeast {v | ∃ b ∈ window p i bs, b.l = v} L ∧
        long[i]? = some (.fin (H - 3 * a)) ∧ short[i]? = some (.fin (L + 3 * a)) ∧
        ((∀ b ∈ bs, b.l ≤ b.h) → 0 ≤ a ∧ H - 3 * a ≤ H ∧ L ≤ L + 3 * a) := by
  obtain ⟨x, b, hx, hbs, hc⟩ := hb.cols
  have hd := ((ATR.makes (F := XF K) q).yields it _ x hx).1 trivial
  refine ⟨_, _, _, hd, (Indicator.get_of_data (I := ATR q) rfl hd).trans (chandelier_tab hp hx _), tab_length _ _,
    tab_length _ _, tab_length _ _, fun i hi => ?_⟩
  have e3 : (fl 3 : XF K) = .fin 3 := by simp
  obtain ⟨u, eu, hu⟩ := maxF_fin hp (fun j => (b j).h) i
  obtain ⟨l, el, hl⟩ := minF_fin hp (fun j => (b j).l) i
  obtain ⟨t, et, ht⟩ : ∃ t, trI x = finF t ∧ ∀ j, (b j).h - (b j).l ≤ t j :=
    ⟨_, trI_fin hc, fun j => le_max_left _ _⟩
  have ew : (ATR.out q x i).atr = .fin (rmaK q t i).2 := by rw [ATR.out, et, rmaF_fin hq]
  refine ⟨_, _, u, l, tab_getElem?_lt hi, ew, ?_, ?_, ?_, ?_, fun hw => ?_⟩
  · rw [hbs]; exact isGreatest_window _ b hi hu
  · rw [hbs]; exact isLeast_window _ b hi hl
  · rw [tab_getElem?_lt hi, hc.hi, eu, ew, e3, mul_fin, sub_fin, mul_comm]
  · rw [tab_getElem?_lt hi, hc.lo, el, ew, e3, mul_fin, add_fin, mul_comm]
  · have hnn : 0 ≤ (rmaK q t i).2 := by
      have e : rmaK q t i = rmaK q (fun j => if j < bs.length then t j else 0) i :=
        rmaK_congr fun j _ h => by rw [if_pos (by omega)]
      rw [e]
      refine (rmaK_nonneg hq (fun j _ => ?_) i).2
      split
      · next hj =>
        have := hw (b j) (by rw [hbs]; exact mem_tab.mpr ⟨j, hj, rfl⟩)
        have := ht j
        linarith
      · exact le_refl _
    exact ⟨hnn, by linarith, by linarith⟩

/-- The three bars of `threeBars` with both periods 2. -/
example : Holds (barItem threeBars) threeBars ∧
    (ATR 2).get (fun s d => ATR.ChandelierExit 2 s d) (barItem threeBars) =
      .ok ([.fin 3, .fin (1 / 2), .fin (-7 / 4)], [.fin 1, .fin (11 / 2), .fin (31 / 4)]) :=
  ⟨holds_barItem _, by decide +kernel⟩

/-- C90, the boundary: with a period that is not positive and at least one candle the call panics. -/
theorem C90_panics {q : Int} {it : Item F} (hne : it.candles ≠ []) {p : Int} (hp : p ≤ 0) :
    ∃ e, (ATR q).get (fun s d => ATR.ChandelierExit p s d) it = .error e := by
  obtain ⟨x, hx⟩ := candles_tab it
  have hd := ((ATR.makes (F := F) q).yields it _ x hx).1 trivial
  rw [Indicator.get_of_data (I := ATR q) rfl hd]
  have hm : ∃ e, Ta.Max p (tab it.candles.length (hi x)) = .error e := by
    rcases lt_or_eq_of_le hp with h | rfl
    · exact ⟨_, Max_neg h _⟩
    · refine ⟨_, Max_zero _ fun h => hne ?_⟩
      have := congrArg List.length h
      simp only [tab_length, List.length_nil] at this
      exact List.length_eq_zero_iff.mp this
  obtain ⟨e, he⟩ := hm
  exact ⟨e, by simp only [ATR.ChandelierExit, GetOHLC_tab hx, ohlcOf, ok_bind, he]; rfl⟩

example : (barItem threeBars).candles ≠ [] := by decide +kernel

end Verif.Props
