import Verif.Props.Bars

/-!
# Reversal signals (C79)

The statements speak about the candles only. No law of float64 is used: a NaN close counts as "not below".
-/

set_option linter.unusedSectionVars false

namespace Verif.Props
open Verif Verif.Klines Verif.Ta Verif.Ind GoFloat

variable {F : Type} [GoFloat F]

/-- Candle `j` and the candle four before exist; whether the later one closed below the earlier one is `b`. -/
def ClosedBelow (cs : List (Candle F)) (b : Bool) (j : Nat) : Prop :=
  ∃ c e, 4 ≤ j ∧ cs[j]? = some c ∧ cs[j - 4]? = some e ∧ (c.close <. e.close) = b

/-- `P` has held for exactly nine consecutive candles up to `i`. -/
def Ninth (P : Nat → Prop) (i : Nat) : Prop :=
  8 ≤ i ∧ (∀ j, i - 8 ≤ j → j ≤ i → P j) ∧ (9 ≤ i → ¬ P (i - 9))

/-- One of the last two lows undercuts the two lows before them. -/
def LowBroken (cs : List (Candle F)) (i : Nat) : Prop :=
  ∃ a b c e, cs[i]? = some a ∧ cs[i - 1]? = some b ∧ cs[i - 2]? = some c ∧ cs[i - 3]? = some e ∧
    ((a.low <=. e.low) = true ∧ (a.low <=. c.low) = true ∨ (b.low <. e.low) = true ∧ (b.low <=. c.low) = true)

/-- One of the last two highs reaches the two highs before them. -/
def HighBroken (cs : List (Candle F)) (i : Nat) : Prop :=
  ∃ a b c e, cs[i]? = some a ∧ cs[i - 1]? = some b ∧ cs[i - 2]? = some c ∧ cs[i - 3]? = some e ∧
    ((e.high <=. a.high) = true ∧ (c.high <=. a.high) = true ∨
      (e.high <=. b.high) = true ∧ (c.high <=. b.high) = true)

/-! ## The counters -/

theorem rev_bull (x : Nat → Candle F) (k : Nat) : ∀ m : Nat, ((m : Int) ≤ (revF x k).bull ↔
    m ≤ k ∧ ∀ j, j < k → k ≤ j + m → 4 ≤ j ∧ (cl x j <. cl x (j - 4)) = true) := by
  induction k with
  | zero => intro m; simp only [revF]; constructor
            · intro h; exact ⟨by omega, fun j hj => by omega⟩
            · rintro ⟨h, -⟩; omega
  | succ k ih =>
    intro m
    have h0 : 0 ≤ (revF x k).bull := (ih 0).mpr ⟨by omega, fun j h1 h2 => by omega⟩
    rw [revF]
    by_cases h4 : k < 4
    · rw [if_pos h4]
      constructor
      · intro h
        have := (ih m).mp h
        rcases Nat.eq_zero_or_pos m with rfl | hm
        · exact ⟨by omega, fun j h1 h2 => by omega⟩
        · have := (this.2 (k - 1) (by omega) (by omega)).1
          omega
      · rintro ⟨h1, h2⟩
        rcases Nat.eq_zero_or_pos m with rfl | hm
        · exact h0
        · have := (h2 k (by omega) (by omega)).1
          omega
    · rw [if_neg h4, Rev.count]
      cases hf : (cl x k <. cl x (k - 4)) with
      | false =>
        simp only [Bool.false_eq_true, if_false]
        constructor
        · intro h; exact ⟨by omega, fun j h1 h2 => by omega⟩
        · rintro ⟨h1, h2⟩
          rcases Nat.eq_zero_or_pos m with rfl | hm
          · exact Int.le_refl _
          · have := (h2 k (by omega) (by omega)).2
            rw [hf] at this; cases this
      | true =>
        simp only [if_true]
        rcases Nat.eq_zero_or_pos m with rfl | hm
        · exact ⟨fun _ => ⟨by omega, fun j h1 h2 => by omega⟩, fun _ => by omega⟩
        · have hi := ih (m - 1)
          constructor
          · intro h
            have := hi.mp (by omega)
            refine ⟨by omega, fun j h1 h2 => ?_⟩
            rcases Nat.lt_succ_iff_lt_or_eq.mp h1 with h1 | rfl
            · exact this.2 j h1 (by omega)
            · exact ⟨by omega, hf⟩
          · rintro ⟨h1, h2⟩
            have := hi.mpr ⟨by omega, fun j h3 h4 => h2 j (by omega) (by omega)⟩
            omega

theorem rev_bear (x : Nat → Candle F) (k : Nat) : ∀ m : Nat, ((m : Int) ≤ (revF x k).bear ↔
    m ≤ k ∧ ∀ j, j < k → k ≤ j + m → 4 ≤ j ∧ (cl x j <. cl x (j - 4)) = false) := by
  induction k with
  | zero => intro m; simp only [revF]; constructor
            · intro h; exact ⟨by omega, fun j hj => by omega⟩
            · rintro ⟨h, -⟩; omega
  | succ k ih =>
    intro m
    have h0 : 0 ≤ (revF x k).bear := (ih 0).mpr ⟨by omega, fun j h1 h2 => by omega⟩
    rw [revF]
    by_cases h4 : k < 4
    · rw [if_pos h4]
      constructor
      · intro h
        have := (ih m).mp h
        rcases Nat.eq_zero_or_pos m with rfl | hm
        · exact ⟨by omega, fun j h1 h2 => by omega⟩
        · have := (this.2 (k - 1) (by omega) (by omega)).1
          omega
      · rintro ⟨h1, h2⟩
        rcases Nat.eq_zero_or_pos m with rfl | hm
        · exact h0
        · have := (h2 k (by omega) (by omega)).1
          omega
    · rw [if_neg h4, Rev.count]
      cases hf : (cl x k <. cl x (k - 4)) with
      | true =>
        simp only [if_true]
        constructor
        · intro h; exact ⟨by omega, fun j h1 h2 => by omega⟩
        · rintro ⟨h1, h2⟩
          rcases Nat.eq_zero_or_pos m with rfl | hm
          · exact Int.le_refl _
          · have := (h2 k (by omega) (by omega)).2
            rw [hf] at this; cases this
      | false =>
        simp only [Bool.false_eq_true, if_false]
        rcases Nat.eq_zero_or_pos m with rfl | hm
        · exact ⟨fun _ => ⟨by omega, fun j h1 h2 => by omega⟩, fun _ => by omega⟩
        · have hi := ih (m - 1)
          constructor
          · intro h
            have := hi.mp (by omega)
            refine ⟨by omega, fun j h1 h2 => ?_⟩
            rcases Nat.lt_succ_iff_lt_or_eq.mp h1 with h1 | rfl
            · exact this.2 j h1 (by omega)
            · exact ⟨by omega, hf⟩
          · rintro ⟨h1, h2⟩
            have := hi.mpr ⟨by omega, fun j h3 h4 => h2 j (by omega) (by omega)⟩
            omega

theorem ninth_iff {P : Nat → Prop} {c : Int} {i : Nat}
    (h : ∀ m : Nat, (m : Int) ≤ c ↔ m ≤ i + 1 ∧ ∀ j, j < i + 1 → i + 1 ≤ j + m → P j) : c = 9 ↔ Ninth P i := by
  have h9 := h 9
  have h10 := h 10
  constructor
  · intro e
    obtain ⟨a, b⟩ := h9.mp (by omega)
    refine ⟨by omega, fun j h1 h2 => b j (by omega) (by omega), fun hi hp => ?_⟩
    have : ((10 : Nat) : Int) ≤ c := h10.mpr ⟨by omega, fun j h1 h2 => by
      rcases Nat.eq_or_lt_of_le h2 with e | h3
      · obtain rfl : j = i - 9 := by omega
        exact hp
      · exact b j h1 (by omega)⟩
    omega
  · rintro ⟨h8, hall, hn⟩
    have l9 : ((9 : Nat) : Int) ≤ c := h9.mpr ⟨by omega, fun j h1 h2 => hall j (by omega) (by omega)⟩
    have l10 : ¬ ((10 : Nat) : Int) ≤ c := fun hc => by
      obtain ⟨a, b⟩ := h10.mp hc
      exact hn (by omega) (b (i - 9) (by omega) (by omega))
    omega

theorem closedBelow_tab {n : Nat} {x : Nat → Candle F} {b : Bool} {j : Nat} (hj : j < n) :
    ClosedBelow (tab n x) b j ↔ 4 ≤ j ∧ (cl x j <. cl x (j - 4)) = b := by
  constructor
  · rintro ⟨c, e, h4, hc, he, h⟩
    rw [tab_getElem?_lt hj] at hc
    rw [tab_getElem?_lt (by omega)] at he
    obtain rfl := Option.some.inj hc
    obtain rfl := Option.some.inj he
    exact ⟨h4, h⟩
  · rintro ⟨h4, h⟩
    exact ⟨_, _, h4, tab_getElem?_lt hj, tab_getElem?_lt (by omega), h⟩

theorem ninth_congr {P Q : Nat → Prop} {i : Nat} (h : ∀ j, j ≤ i → (P j ↔ Q j)) : Ninth P i ↔ Ninth Q i := by
  refine and_congr_right fun h8 => and_congr (forall_congr' fun j => forall_congr' fun _ => forall_congr' fun hj => h j hj)
    (forall_congr' fun h9 => not_congr (h _ (by omega)))

/-- **C79.** `ReversalSignals` reports `Buy` exactly on the ninth consecutive candle that closes below the close four
candles earlier, if one of its last two lows breaks the two before; `Sell` exactly on the ninth consecutive candle
that does not, if one of its last two highs breaks the two before; otherwise `Hold`. -/
theorem C79_reversal_exact {it : Item F} {d : List Rev.Data} (hd : Rev.data it = .ok d) {i : Nat} {r : Rev.Data}
    (hr : d[i]? = some r) :
    (r.side = Buy ↔ Ninth (ClosedBelow it.candles true) i ∧ LowBroken it.candles i) ∧
    (r.side = Sell ↔ Ninth (ClosedBelow it.candles false) i ∧ HighBroken it.candles i) ∧
    (r.side = Buy ∨ r.side = Sell ∨ r.side = Hold) := by
  obtain ⟨x, hx⟩ := candles_tab it
  generalize it.candles.length = n at hx
  obtain ⟨-, rfl⟩ := yields_inv Rev.makes.yields hx hd
  rw [hx]
  have hi : i < n := by
    by_contra hn
    rw [List.getElem?_eq_none (by rw [tab_length]; omega)] at hr
    cases hr
  rw [tab_getElem?_lt hi] at hr
  obtain rfl := Option.some.inj hr
  have eT : Ninth (ClosedBelow (tab n x) true) i ↔ (revF x (i + 1)).bull = 9 := by
    rw [ninth_iff (rev_bull x (i + 1)), ninth_congr fun j hj => closedBelow_tab (by omega)]
  have eF : Ninth (ClosedBelow (tab n x) false) i ↔ (revF x (i + 1)).bear = 9 := by
    rw [ninth_iff (rev_bear x (i + 1)), ninth_congr fun j hj => closedBelow_tab (by omega)]
  have not4 : ∀ b, i < 4 → ¬ Ninth (ClosedBelow (tab n x) b) i := fun b h4 h => by have := h.1; omega
  have eL : LowBroken (tab n x) i ↔ ((lo x i <=. lo x (i - 3) && lo x i <=. lo x (i - 2)) ||
      (lo x (i - 1) <. lo x (i - 3) && lo x (i - 1) <=. lo x (i - 2))) = true := by
    simp only [LowBroken, tab_getElem?_lt hi, tab_getElem?_lt (show i - 1 < n by omega),
      tab_getElem?_lt (show i - 2 < n by omega), tab_getElem?_lt (show i - 3 < n by omega), Bool.or_eq_true,
      Bool.and_eq_true]
    constructor
    · rintro ⟨a, b, c, e, ha, hb, hc, he, h⟩
      obtain rfl := Option.some.inj ha
      obtain rfl := Option.some.inj hb
      obtain rfl := Option.some.inj hc
      obtain rfl := Option.some.inj he
      exact h
    · intro h
      exact ⟨_, _, _, _, rfl, rfl, rfl, rfl, h⟩
  have eH : HighBroken (tab n x) i ↔ ((Ind.hi x i >=. Ind.hi x (i - 3) && Ind.hi x i >=. Ind.hi x (i - 2)) ||
      (Ind.hi x (i - 1) >=. Ind.hi x (i - 3) && Ind.hi x (i - 1) >=. Ind.hi x (i - 2))) = true := by
    simp only [HighBroken, tab_getElem?_lt hi, tab_getElem?_lt (show i - 1 < n by omega),
      tab_getElem?_lt (show i - 2 < n by omega), tab_getElem?_lt (show i - 3 < n by omega), Bool.or_eq_true,
      Bool.and_eq_true]
    constructor
    · rintro ⟨a, b, c, e, ha, hb, hc, he, h⟩
      obtain rfl := Option.some.inj ha
      obtain rfl := Option.some.inj hb
      obtain rfl := Option.some.inj hc
      obtain rfl := Option.some.inj he
      exact h
    · intro h
      exact ⟨_, _, _, _, rfl, rfl, rfl, rfl, h⟩
  have both : ¬ ((revF x (i + 1)).bull = 9 ∧ (revF x (i + 1)).bear = 9) := by
    rintro ⟨h1, h2⟩
    have a := ((rev_bull x (i + 1) 1).mp (by omega)).2 i (by omega) (by omega)
    have b := ((rev_bear x (i + 1) 1).mp (by omega)).2 i (by omega) (by omega)
    rw [a.2] at b; cases b.2
  by_cases h4 : i < 4
  · simp only [Rev.out, if_pos h4]
    exact ⟨⟨fun h => absurd h (by decide), fun h => absurd h.1 (not4 _ h4)⟩,
      ⟨fun h => absurd h (by decide), fun h => absurd h.1 (not4 _ h4)⟩, by simp⟩
  simp only [Rev.out, if_neg h4, Rev.decide]
  rw [eT, eF, eL, eH]
  generalize (lo x i <=. lo x (i - 3) && lo x i <=. lo x (i - 2) ||
    lo x (i - 1) <. lo x (i - 3) && lo x (i - 1) <=. lo x (i - 2)) = pb
  generalize (Ind.hi x i >=. Ind.hi x (i - 3) && Ind.hi x i >=. Ind.hi x (i - 2) ||
    Ind.hi x (i - 1) >=. Ind.hi x (i - 3) && Ind.hi x (i - 1) >=. Ind.hi x (i - 2)) = ps
  have n1 : Sell ≠ Buy := by decide
  have n2 : Hold ≠ Buy := by decide
  have n3 : Hold ≠ Sell := by decide
  by_cases hb : (revF x (i + 1)).bull = 9 <;> by_cases hs : (revF x (i + 1)).bear = 9 <;> cases pb <;> cases ps <;>
    simp_all [n1.symm, n2.symm, n3.symm]

/-- **C79.** Two different `Buy` reports are at least ten candles apart, and so are two different `Sell` reports. -/
theorem C79_reversals_apart {it : Item F} {d : List Rev.Data} (hd : Rev.data it = .ok d) {i j : Nat} (hij : i < j)
    {r s : Rev.Data} (hr : d[i]? = some r) (hs : d[j]? = some s) (he : r.side = s.side) (hh : r.side ≠ Hold) :
    i + 10 ≤ j := by
  have key : ∀ b, Ninth (ClosedBelow it.candles b) i → Ninth (ClosedBelow it.candles b) j → i + 10 ≤ j := by
    intro b hi hj
    by_contra hlt
    by_cases h9 : j = i + 9
    · exact hj.2.2 (by omega) (by rw [show j - 9 = i by omega]; exact hi.2.1 i (by omega) (by omega))
    · exact hj.2.2 (by have := hi.1; omega) (hi.2.1 _ (by omega) (by omega))
  obtain ⟨b1, s1, t1⟩ := C79_reversal_exact hd hr
  obtain ⟨b2, s2, -⟩ := C79_reversal_exact hd hs
  rcases t1 with h | h | h
  · exact key true (b1.mp h).1 (b2.mp (he ▸ h)).1
  · exact key false (s1.mp h).1 (s2.mp (he ▸ h)).1
  · exact absurd h hh

/-- **C79.** Nothing is reported on the first twelve candles, whatever they hold. -/
theorem C79_reversal_warmup {it : Item F} {d : List Rev.Data} (hd : Rev.data it = .ok d) {i : Nat} (hi : i < 12)
    {r : Rev.Data} (hr : d[i]? = some r) : r.side = Hold := by
  obtain ⟨b, s, t⟩ := C79_reversal_exact hd hr
  have no : ∀ v, ¬ Ninth (ClosedBelow it.candles v) i := by
    rintro v ⟨h8, hall, -⟩
    obtain ⟨c, e, h4, -⟩ := hall (i - 8) (by omega) (by omega)
    omega
  rcases t with h | h | h
  · exact absurd (b.mp h).1 (no _)
  · exact absurd (s.mp h).1 (no _)
  · exact h

/-- Fourteen candles at one price: the thirteenth is the ninth "not below" candle and a `Sell`. -/
example : ((Rev.data (barItem (List.replicate 14 (⟨1, 1, 1, 1, 1⟩ : Bar ℚ)))).toOption.getD []).map (·.side) =
    List.replicate 12 Hold ++ [Sell, Hold] := by decide +kernel

/-- Fourteen falling candles: the thirteenth is a `Buy`. -/
example : ((Rev.data (barItem ((List.range 14).map fun i => (⟨50 - i, 50 - i, 50 - i, 50 - i, 1⟩ : Bar ℚ)))).toOption.getD
    []).map (·.side) = List.replicate 12 Hold ++ [Buy, Hold] := by decide +kernel

end Verif.Props
