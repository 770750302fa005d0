import Verif.Props.Crossing
import Verif.Props.Lines
import Verif.Ind.Osc
import Verif.Klines.Convert

/-!
# The Camarilla strategy (C87)
-/

set_option linter.unusedSectionVars false

namespace Verif.Props
open Verif Verif.Klines Verif.Ta Verif.Ind GoFloat XF

variable {F : Type} [GoFloat F]

/-- `r` governs candle `i` of `cs`: it is the first record of the other series `nd` on the calendar day of a candle
`j ≤ i`, and the other series has no record on the days of the candles after `j` up to `i`. -/
def Governs (day : Int → Int) (cs : List (Candle F)) (nd : List (Camarilla.Data F)) (i : Nat) (r : Camarilla.Data F) :
    Prop :=
  ∃ j c, j ≤ i ∧ cs[j]? = some c ∧ nd.find? (fun d => day d.time == day c.timeUnix) = some r ∧
    ∀ m c', j < m → m ≤ i → cs[m]? = some c' → ∀ d ∈ nd, day d.time ≠ day c'.timeUnix

/-- The governing record after the first `i` candles. -/
def camSec (day : Int → Int) (nd : List (Camarilla.Data F)) (x : Nat → Candle F) : Nat → Option (Camarilla.Data F)
  | 0 => none
  | i + 1 => match nd.find? (fun d => day d.time == day (ti x i)) with
    | some d => some d
    | none => camSec day nd x i

theorem camSec_governs (day : Int → Int) (nd : List (Camarilla.Data F)) {cs : List (Candle F)} {n : Nat}
    {x : Nat → Candle F} (hx : cs = tab n x) {i : Nat} (hi : i < n) (r : Camarilla.Data F) :
    camSec day nd x (i + 1) = some r ↔ Governs day cs nd i r := by
  subst hx
  induction i with
  | zero =>
    constructor
    · intro h
      refine ⟨0, x 0, le_refl _, tab_getElem?_lt hi, ?_, fun m _ h1 h2 => by omega⟩
      rw [camSec] at h
      split at h
      · rename_i d hd; rw [← h]; exact hd
      · cases h
    · rintro ⟨j, c, hj, hc, hf, -⟩
      obtain rfl : j = 0 := by omega
      rw [tab_getElem?_lt hi] at hc; cases hc
      rw [camSec]; show (match nd.find? (fun d => day d.time == day (x 0).timeUnix) with | some d => _ | none => _) = _
      rw [hf]
  | succ i ih =>
    rw [camSec]
    cases hf : nd.find? (fun d => day d.time == day (ti x (i + 1))) with
    | some d =>
      simp only []
      constructor
      · intro h; cases h
        exact ⟨i + 1, x (i + 1), le_refl _, tab_getElem?_lt hi, hf, fun m _ h1 h2 => by omega⟩
      · rintro ⟨j, c, hj, hc, hg, hno⟩
        rcases Nat.lt_or_ge j (i + 1) with h | h
        · exact absurd (by simpa [ti] using List.find?_some hf)
            (hno (i + 1) (x (i + 1)) h (le_refl _) (tab_getElem?_lt hi) d (List.mem_of_find?_eq_some hf))
        · obtain rfl : j = i + 1 := by omega
          rw [tab_getElem?_lt hi] at hc; cases hc
          exact hf.symm.trans hg
    | none =>
      simp only []
      rw [ih (by omega)]
      have hnone : ∀ d ∈ nd, day d.time ≠ day (x (i + 1)).timeUnix := by
        intro d hd he
        have := List.find?_eq_none.mp hf d hd
        exact this (by simpa [ti] using he)
      constructor
      · rintro ⟨j, c, hj, hc, hg, hno⟩
        refine ⟨j, c, by omega, hc, hg, fun m c' h1 h2 h3 => ?_⟩
        rcases Nat.lt_or_ge m (i + 1) with h | h
        · exact hno m c' h1 (by omega) h3
        · obtain rfl : m = i + 1 := by omega
          rw [tab_getElem?_lt hi] at h3; cases h3
          exact hnone
      · rintro ⟨j, c, hj, hc, hg, hno⟩
        rcases Nat.lt_or_ge j (i + 1) with h | h
        · exact ⟨j, c, by omega, hc, hg, fun m c' h1 h2 h3 => hno m c' h1 (by omega) h3⟩
        · obtain rfl : j = i + 1 := by omega
          rw [tab_getElem?_lt hi] at hc; cases hc
          exact absurd (hf.symm.trans hg) (by simp)

/-- `NewCamarilla(it, p).AnalysisSide(other)`; models oscillator/Camarilla.go:115-155. -/
def camarillaSignals (p : Int) (day : Int → Int) (other it : Item F) : Go (List Side) :=
  (Camarilla p).get (Camarilla.sides p day other) it

theorem camarillaSignals_eq (p : Int) (day : Int → Int) {other it : Item F} {n : Nat} {x : Nat → Candle F}
    (hx : it.candles = tab n x) {nd : List (Camarilla.Data F)} (hnd : (Camarilla p).data other = .ok nd) :
    camarillaSignals p day other it = .ok (tab n fun i =>
      Camarilla.rule (camSec day nd x (i + 1)) (Camarilla.out p x i) (cl x i) (op x i)) := by
  have hd := ((Camarilla.makes p).yields it n x hx).1 trivial
  rw [camarillaSignals, Indicator.get_of_data (I := Camarilla p) rfl hd]
  have hl : it.candles.length = n := by rw [hx, tab_length]
  simp only [Camarilla.sides, hl, mk_nat, ok_bind, hnd, GetOHLC_tab hx, ohlcOf, tab_length]
  rw [goFor_fill (s := (none : Option (Camarilla.Data F)))
    (fun i => Camarilla.rule (camSec day nd x (i + 1)) (Camarilla.out p x i) (cl x i) (op x i))
    (fun k => camSec day nd x k) rfl]
  · rfl
  · intro k hk
    simp only [idx_tab hk, ok_bind]
    have ht : (Camarilla.out p x k).time = ti x k := rfl
    have hsec : camSec day nd x (k + 1) = match nd.find? (fun d => day d.time == day (ti x k)) with
      | some d => some d
      | none => camSec day nd x k := by rw [camSec]
    rw [ht]
    cases hf : nd.find? (fun d => day d.time == day (ti x k)) <;> rw [hf] at hsec <;> simp only [] at hsec ⊢ <;>
      rw [setAt_filled (f := fun i => Camarilla.rule (camSec day nd x (i + 1)) (Camarilla.out p x i) (cl x i) (op x i))
        hk (by rw [hsec]), ok_bind, hsec] <;> rfl

private theorem cam_bool {a a' o o' c c' : Bool} {v : Side} (h1 : a = true → a' = false)
    (h : v = if a && c' && o then Buy else if a' && c && o' then Sell else Hold) :
    (v = Buy ↔ a = true ∧ o = true ∧ c' = true) ∧ (v = Sell ↔ a' = true ∧ o' = true ∧ c = true) ∧
    (v = Buy ∨ v = Sell ∨ v = Hold) := by
  subst h
  revert h1
  cases a <;> cases a' <;> cases o <;> cases o' <;> cases c <;> cases c' <;> decide

/-- **C87.** Camarilla's strategy reports `Buy` at candle `i` exactly when a record of the other series governs it and the
candle opened below and closed above that record's `High4` while the close is below the average; `Sell` exactly when it
opened above and closed below `High4` while the close is above the average; otherwise `Hold`. The low levels play no
role. -/
theorem C87_camarilla (ha : LtAsymm F) (p : Int) (day : Int → Int) {other it : Item F} {d nd : List (Camarilla.Data F)}
    {s : List Side} (hd : (Camarilla p).data it = .ok d) (hnd : (Camarilla p).data other = .ok nd)
    (hs : camarillaSignals p day other it = .ok s) :
    s.length = it.candles.length ∧
    ∀ (i : Nat) (c : Candle F) (v : Camarilla.Data F) (side : Side), it.candles[i]? = some c → d[i]? = some v →
      s[i]? = some side →
      (side = Buy ↔ ∃ r, Governs day it.candles nd i r ∧ (c.close <. v.ema) = true ∧ (c.open_ <. r.h4) = true ∧
        (c.close >. r.h4) = true) ∧
      (side = Sell ↔ ∃ r, Governs day it.candles nd i r ∧ (c.close >. v.ema) = true ∧ (c.open_ >. r.h4) = true ∧
        (c.close <. r.h4) = true) ∧
      (side = Buy ∨ side = Sell ∨ side = Hold) := by
  obtain ⟨x, hx⟩ := candles_tab it
  have e1 := (yields_inv (Camarilla.makes p).yields hx hd).2
  rw [camarillaSignals_eq p day hx hnd] at hs
  cases hs
  refine ⟨tab_length .., fun i c v side hc hv hside => ?_⟩
  have hn : i < it.candles.length := (List.getElem?_eq_some_iff.mp hc).1
  have hg := camSec_governs day nd hx hn
  rw [hx, tab_getElem?_lt hn] at hc
  rw [e1, tab_getElem?_lt hn] at hv
  rw [tab_getElem?_lt hn] at hside
  cases hc; cases hv; cases hside
  simp only [← hg]
  cases camSec day nd x (i + 1) with
  | none => simp [Camarilla.rule]; decide
  | some r =>
    have h1 := ha (x i).close (Camarilla.out p x i).ema
    simp only [Camarilla.rule, Option.some.injEq, exists_eq_left', cl, op]
    exact cam_bool h1 rfl

/-- Three candles of eight hours on one day; the last one ends at `z`. -/
def oneDay (z : ℚ) : Item (XF ℚ) :=
  { exchange := "x", interval := 28800 * nsec, symbol := "s", code := "c",
    candles := [candleOf 86400 20 20 20 20 1, candleOf 115200 5 15 5 15 1, candleOf 144000 15 20 5 z 1] }

/-- The day of `oneDay` as one candle. -/
def daily (z : ℚ) : Item (XF ℚ) :=
  { exchange := "x", interval := 86400 * nsec, symbol := "", code := "",
    candles := [{ candleOf 86400 20 20 5 z 3 with changePercent := .fin ((z - 20) / 20) }] }

/-- The strategy looks ahead: two markets agree on the first two candles, the daily series is made from the same
candles by `ConvertToNewInterval`, and the signal of the second candle is `Buy` in one and `Hold` in the other, because
the levels of a day contain the close of that day. -/
theorem C87_lookahead : ∃ (it it' other other' : Item (XF ℚ)) (s s' : List Side),
    ConvertToNewInterval 0 (some it) (86400 * nsec) = .ok (.ok other) ∧
    ConvertToNewInterval 0 (some it') (86400 * nsec) = .ok (.ok other') ∧
    it.candles.take 2 = it'.candles.take 2 ∧
    camarillaSignals 3 (fun t => t / 86400) other it = .ok s ∧
    camarillaSignals 3 (fun t => t / 86400) other' it' = .ok s' ∧ s[1]? = some Buy ∧ s'[1]? = some Hold :=
  ⟨oneDay (11 / 2), oneDay 20, daily (11 / 2), daily 20, [Hold, Buy, Hold], [Hold, Hold, Hold], by decide +kernel,
    by decide +kernel, rfl, by decide +kernel, by decide +kernel, rfl, rfl⟩

/-- `C87_camarilla` applies: the second candle of the day is a `Buy`. -/
example : LtAsymm (XF ℚ) ∧ camarillaSignals 3 (fun t => t / 86400) (daily (11 / 2)) (oneDay (11 / 2)) =
    .ok [Hold, Buy, Hold] := ⟨ltAsymm_XF, by decide +kernel⟩

end Verif.Props
