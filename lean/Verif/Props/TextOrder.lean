import Verif.Props.CandleText

/-!
# C149: texts of candles sort in the order of time

Lines printed with `Candle.String` are put in the order of time by sorting them as texts, between the years 0 and 9999 and on a clock
that is never put back. Texts are compared character by character, as `<` on lists of characters does.
-/

namespace Verif.Props
open Verif Verif.Klines

/-! ## Texts of the same length -/

theorem lt_append {u v : List Char} (hl : u.length = v.length) (h : u < v) (x y : List Char) : u ++ x < v ++ y := by
  induction u generalizing v with
  | nil =>
    cases v with
    | nil => exact absurd h (List.lt_irrefl _)
    | cons b v => simp at hl
  | cons a u ih =>
    cases v with
    | nil => simp at hl
    | cons b v =>
      simp only [List.cons_append]
      rw [List.cons_lt_cons_iff] at h ⊢
      rcases h with h | ⟨h1, h2⟩
      · exact .inl h
      · exact .inr ⟨h1, ih (by simpa using hl) h2⟩

theorem append_lt (u : List Char) {x y : List Char} (h : x < y) : u ++ x < u ++ y := by
  induction u with
  | nil => exact h
  | cons a u ih => simp only [List.cons_append]; rw [List.cons_lt_cons_iff]; exact .inr ⟨rfl, ih⟩

theorem app_lt (u : List Char) (c : Char) {x y : List Char} (h : x < y) : u ++ c :: x < u ++ c :: y :=
  append_lt u (append_lt [c] h)

theorem digitChar_lt : ∀ e < 10, ∀ d < e, Nat.digitChar d < Nat.digitChar e := by decide

theorem two_lt {a b : Nat} (hb : b < 100) (h : a < b) (x y : List Char) : two a ++ x < two b ++ y := by
  refine lt_append (by simp [two]) ?_ x y
  rw [two, two, List.cons_lt_cons_iff]
  by_cases g : a / 10 < b / 10
  · exact .inl (digitChar_lt _ (by omega) _ g)
  · have e : a / 10 = b / 10 := by omega
    refine .inr ⟨by rw [e], ?_⟩
    rw [List.cons_lt_cons_iff]
    exact .inl (digitChar_lt _ (by omega) _ (by omega))

/-! ## Readings -/

theorem appendInt_four : ∀ a < 100, ∀ b < 100, appendInt ((100 * a + b : Nat) : Int) 4 = two a ++ two b := by decide +kernel

theorem appendInt_year {y : Int} (h0 : 0 ≤ y) (h1 : y ≤ 9999) : appendInt y 4 = two (y.toNat / 100) ++ two (y.toNat % 100) := by
  rw [← appendInt_four _ (by omega) _ (by omega)]
  congr 1
  omega

theorem year_lt {y y' : Int} (h0 : 0 ≤ y) (h1 : y' ≤ 9999) (h : y < y') (a b : List Char) :
    appendInt y 4 ++ a < appendInt y' 4 ++ b := by
  rw [appendInt_year h0 (by omega), appendInt_year (by omega) h1, List.append_assoc, List.append_assoc]
  by_cases g : y.toNat / 100 < y'.toNat / 100
  · exact two_lt (by omega) g _ _
  · have e : y.toNat / 100 = y'.toNat / 100 := by omega
    rw [e]
    exact append_lt _ (two_lt (by omega) (by omega) _ _)

theorem daysToMonth_lt : ∀ leap : Bool, ∀ m' < 13, ∀ m < m', 1 ≤ m → daysToMonth leap m + monthLen leap m ≤ daysToMonth leap m' := by
  decide +kernel

/-- A later reading has a later text. -/
theorem clock_text_lt {c c' : Clock} (h : c.Valid) (h' : c'.Valid) (h0 : 0 ≤ c.year) (h1 : c'.year ≤ 9999)
    (e : c.instant < c'.instant) : c.text < c'.text := by
  obtain ⟨y, m, d, hh, mi, s⟩ := c
  obtain ⟨y', m', d', hh', mi', s'⟩ := c'
  obtain ⟨a1, a2, a3, a4, a5, a6, a7⟩ := h
  obtain ⟨b1, b2, b3, b4, b5, b6, b7⟩ := h'
  simp only [monthLength_eq] at *
  have ad := a4.trans (monthLen_le _ _)
  have bd := b4.trans (monthLen_le _ _)
  obtain ⟨-, k2⟩ := monthDay_of (isLeap y) m (by omega) d (by omega) ⟨a1, a3, a4⟩
  obtain ⟨-, k2'⟩ := monthDay_of (isLeap y') m' (by omega) d' (by omega) ⟨b1, b3, b4⟩
  simp only [Clock.instant] at e
  have s2 := daysToYear_succ y'
  rw [← yearLen] at k2 k2'
  simp only [Clock.text, List.append_assoc, List.cons_append]
  rcases lt_trichotomy y y' with g | g | g
  · exact year_lt h0 h1 g _ _
  · subst g
    refine app_lt _ _ ?_
    rcases lt_trichotomy m m' with g | g | g
    · exact two_lt (by omega) g _ _
    · subst g
      refine app_lt _ _ ?_
      rcases lt_trichotomy d d' with g | g | g
      · exact two_lt (by omega) g _ _
      · subst g
        refine app_lt _ _ ?_
        rcases lt_trichotomy hh hh' with g | g | g
        · exact two_lt (by omega) g _ _
        · subst g
          refine app_lt _ _ ?_
          rcases lt_trichotomy mi mi' with g | g | g
          · exact two_lt (by omega) g _ _
          · subst g
            refine app_lt _ _ ?_
            have := two_lt (a := s) (b := s') (by omega) (by omega) [] []
            rwa [List.append_nil, List.append_nil] at this
          · omega
        · omega
      · omega
    · have := daysToMonth_lt (isLeap y) m (by omega) m' g b1
      omega
  · have := daysToYear_mono (show y' + 1 ≤ y by omega)
    omega

/-! ## Instants -/

/-- The years 0 to 9999 of the calendar, in seconds since 1970. -/
def FourDigits (s : Int) : Prop := -62167219200 ≤ s ∧ s ≤ 253402300799

theorem clockAt_year {s : Int} (h : FourDigits s) : 0 ≤ (clockAt s).year ∧ (clockAt s).year ≤ 9999 := by
  obtain ⟨h1, h2, h3⟩ := yearDay_spec (s / 86400 + 719162)
  obtain ⟨a, b⟩ := h
  have e : (clockAt s).year = (yearDay (s / 86400 + 719162)).1 := rfl
  rw [e]
  generalize (yearDay (s / 86400 + 719162)).1 = y at *
  have g := daysToYear_succ y
  constructor
  · by_contra hn
    have := daysToYear_mono (show y + 1 ≤ 0 by omega)
    have e0 : daysToYear 0 = -366 := by decide
    omega
  · by_contra hn
    have := daysToYear_mono (show 10000 ≤ y by omega)
    have e0 : daysToYear 10000 = 3652059 := by decide
    omega

theorem stamp_lt {s s' : Int} (h : FourDigits s) (h' : FourDigits s') (e : s < s') : stampText s < stampText s' := by
  obtain ⟨h1, h2, h3⟩ := clockAt_spec s
  obtain ⟨k1, k2, k3⟩ := clockAt_spec s'
  rw [h3, k3]
  exact clock_text_lt h1 k1 (clockAt_year h).1 (clockAt_year h').2 (by rw [h2, k2]; exact e)

theorem stamp_length {s : Int} (h : FourDigits s) : (stampText s).length = 19 := by
  obtain ⟨-, -, h3⟩ := clockAt_spec s
  rw [h3, Clock.text, appendInt_year (clockAt_year h).1 (clockAt_year h).2]
  simp [two]

/-- **C149 (instants).** Within the years 0 to 9999 the text of one instant comes before the text of another exactly if the instant
does. -/
theorem C149_instants {s s' : Int} (h : FourDigits s) (h' : FourDigits s') : stampText s < stampText s' ↔ s < s' := by
  refine ⟨fun hlt => ?_, stamp_lt h h'⟩
  rcases lt_trichotomy s s' with g | g | g
  · exact g
  · subst g; exact absurd hlt (List.lt_irrefl _)
  · exact absurd (List.lt_trans hlt (stamp_lt h' h g)) (List.lt_irrefl _)

/-! ## Candles -/

/-- The clock of the place is never put back. -/
def NeverBack (zone : Int → Int) : Prop := ∀ s s', s < s' → s + zone s < s' + zone s'

theorem candle_lt {zone : Int → Int} (hz : NeverBack zone) {e e' : Candle B64} (h : FourDigits (e.timeUnix + zone e.timeUnix))
    (h' : FourDigits (e'.timeUnix + zone e'.timeUnix)) (hlt : e.timeUnix < e'.timeUnix) : candleString zone e < candleString zone e' := by
  have key := stamp_lt h h' (hz _ _ hlt)
  have hl : (stampText (e.timeUnix + zone e.timeUnix)).length = (stampText (e'.timeUnix + zone e'.timeUnix)).length := by
    rw [stamp_length h, stamp_length h']
  simp only [candleString, List.append_assoc]
  exact lt_append hl key _ _

/-- **C149 (lines).** On a clock that is never put back: if the candles of a series follow each other in time, the lines printed for
them come back in the order of the series by sorting them as texts, however they were mixed up and whatever the prices are. -/
theorem C149_lines {zone : Int → Int} (hz : NeverBack zone) {cs : List (Candle B64)}
    (hy : ∀ e ∈ cs, FourDigits (e.timeUnix + zone e.timeUnix)) (ht : cs.Pairwise fun e e' => e.timeUnix < e'.timeUnix)
    {lines : List (List Char)} (hp : lines.Perm (cs.map (candleString zone))) (hs : lines.Pairwise fun u v => ¬ v < u) :
    lines = cs.map (candleString zone) := by
  have hq : (cs.map (candleString zone)).Pairwise fun u v => ¬ v < u := by
    rw [List.pairwise_map]
    refine List.Pairwise.imp_of_mem (fun {a b} ha hb hab => ?_) ht
    exact fun g => List.lt_irrefl _ (List.lt_trans g (candle_lt hz (hy a ha) (hy b hb) hab))
  refine List.Perm.eq_of_pairwise (fun a b _ _ h1 h2 => ?_) hs hq hp
  exact List.le_antisymm h1 h2

/-- C149: the hypotheses hold for three candles on the clock of Tokyo, printed in another order. -/
example : let zone : Int → Int := fun _ => 32400
    let c (t : Int) : Candle B64 := { (Candle.zero 0 : Candle B64) with timeUnix := t }
    NeverBack zone ∧ (∀ e ∈ [c 951782399, c 951782400, c 1700000000], FourDigits (e.timeUnix + zone e.timeUnix)) ∧
      [c 951782399, c 951782400, c 1700000000].Pairwise (fun e e' => e.timeUnix < e'.timeUnix) := by
  refine ⟨fun s s' h => by dsimp only; omega, ?_, ?_⟩
  · simp [FourDigits]
  · simp

/-- **C149 (refuted part).** Outside those years the order is lost, on both sides; and where the clock is put back, a later candle
with the same numbers can come first. -/
theorem C149_refuted : (∃ s s', 0 ≤ s ∧ s < s' ∧ stampText s' < stampText s) ∧ (∃ s s', s < s' ∧ s' < 0 ∧ stampText s' < stampText s) ∧
    ∃ s s', FourDigits (s + berlin s) ∧ FourDigits (s' + berlin s') ∧ s < s' ∧ stampText (s' + berlin s') < stampText (s + berlin s) := by
  refine ⟨⟨253402300799, 253402300800, by decide, by decide, by decide +kernel⟩,
    ⟨-62230377600, -62230377599 + 31536000, by decide, by decide, by decide +kernel⟩,
    ⟨1729990799, 1729990800, ⟨by decide, by decide⟩, ⟨by decide, by decide⟩, by decide, by decide +kernel⟩⟩

end Verif.Props
