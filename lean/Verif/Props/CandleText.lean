import Verif.Props.NumberText

/-!
# C146: what the text of a candle says

`Candle.String` prints the instant of a candle with the clock of the machine, six numbers and a flag. The specification of the clock
is the carry rule `tick`, which says what a calendar clock shows one second later.
-/

namespace Verif.Props
open Verif Verif.Klines

/-! ## The calendar clock -/

/-- What a calendar clock shows. -/
structure Clock where
  year : Int
  month : Nat
  day : Nat
  hour : Nat
  min : Nat
  sec : Nat
  deriving DecidableEq

/-- The number of days of a month of the Gregorian calendar. -/
def monthLength (year : Int) (month : Nat) : Nat :=
  if month = 2 then (if year % 4 = 0 ∧ (year % 100 ≠ 0 ∨ year % 400 = 0) then 29 else 28)
  else if month = 4 ∨ month = 6 ∨ month = 9 ∨ month = 11 then 30 else 31

/-- The reading exists. -/
def Clock.Valid (c : Clock) : Prop :=
  1 ≤ c.month ∧ c.month ≤ 12 ∧ 1 ≤ c.day ∧ c.day ≤ monthLength c.year c.month ∧ c.hour < 24 ∧ c.min < 60 ∧ c.sec < 60

/-- One second later. -/
def Clock.tick (c : Clock) : Clock :=
  if c.sec < 59 then { c with sec := c.sec + 1 }
  else if c.min < 59 then { c with min := c.min + 1, sec := 0 }
  else if c.hour < 23 then { c with hour := c.hour + 1, min := 0, sec := 0 }
  else if c.day < monthLength c.year c.month then { c with day := c.day + 1, hour := 0, min := 0, sec := 0 }
  else if c.month < 12 then { c with month := c.month + 1, day := 1, hour := 0, min := 0, sec := 0 }
  else ⟨c.year + 1, 1, 1, 0, 0, 0⟩

/-- A number with two digits. -/
def two (n : Nat) : List Char := [Nat.digitChar (n / 10), Nat.digitChar (n % 10)]

/-- The reading written down: the year with at least four digits, everything else with two. -/
def Clock.text (c : Clock) : List Char :=
  appendInt c.year 4 ++ '-' :: two c.month ++ '-' :: two c.day ++ ' ' :: two c.hour ++ ':' :: two c.min ++ ':' :: two c.sec

/-! ### Seconds of a reading -/

def daysToYear (y : Int) : Int := 365 * (y - 1) + (y - 1) / 4 - (y - 1) / 100 + (y - 1) / 400

theorem isLeap_iff (y : Int) : isLeap y = true ↔ y % 4 = 0 ∧ (y % 100 ≠ 0 ∨ y % 400 = 0) := by simp [isLeap]

def yearLen (y : Int) : Nat := if isLeap y then 366 else 365

def monthLen (leap : Bool) (month : Nat) : Nat :=
  if month = 2 then (if leap then 29 else 28) else if month = 4 ∨ month = 6 ∨ month = 9 ∨ month = 11 then 30 else 31

theorem monthLength_eq (y : Int) (m : Nat) : monthLength y m = monthLen (isLeap y) m := by
  simp only [monthLength, monthLen, isLeap_iff]

def daysToMonth (leap : Bool) (month : Nat) : Nat := ((List.range (month - 1)).map fun i => monthLen leap (i + 1)).sum

def Clock.instant (c : Clock) : Int :=
  86400 * (daysToYear c.year + daysToMonth (isLeap c.year) c.month + c.day - 1 - 719162) + 3600 * c.hour + 60 * c.min + c.sec

theorem daysToYear_succ (y : Int) : daysToYear (y + 1) = daysToYear y + yearLen y := by
  simp only [daysToYear, yearLen, isLeap_iff]
  split_ifs <;> omega

theorem daysToYear_mono {y y' : Int} (h : y ≤ y') : daysToYear y ≤ daysToYear y' := by
  simp only [daysToYear]; omega

theorem year_cycle (n1 : Int) {n2 n3 n4 : Int} (h2 : 0 ≤ n2 ∧ n2 ≤ 3) (h3 : 0 ≤ n3 ∧ n3 ≤ 24) (h4 : 0 ≤ n4 ∧ n4 ≤ 3) :
    ((400 * n1 + 100 * n2 + 4 * n3 + n4 + 1) % 4 = 0 ↔ n4 = 3) ∧
    ((400 * n1 + 100 * n2 + 4 * n3 + n4 + 1) % 100 = 0 ↔ n4 = 3 ∧ n3 = 24) ∧
    ((400 * n1 + 100 * n2 + 4 * n3 + n4 + 1) % 400 = 0 ↔ n4 = 3 ∧ n3 = 24 ∧ n2 = 3) := by
  refine ⟨?_, ?_, ?_⟩
  · rw [show 400 * n1 + 100 * n2 + 4 * n3 + n4 + 1 = (n4 + 1) + (100 * n1 + 25 * n2 + n3) * 4 by ring, Int.add_mul_emod_self_right]
    omega
  · rw [show 400 * n1 + 100 * n2 + 4 * n3 + n4 + 1 = (4 * n3 + n4 + 1) + (4 * n1 + n2) * 100 by ring, Int.add_mul_emod_self_right]
    omega
  · rw [show 400 * n1 + 100 * n2 + 4 * n3 + n4 + 1 = (100 * n2 + 4 * n3 + n4 + 1) + n1 * 400 by ring, Int.add_mul_emod_self_right]
    omega

theorem leap_logic {P Q R : Prop} : (P ∧ (¬ (P ∧ Q) ∨ (P ∧ Q ∧ R))) ↔ P ∧ (¬ Q ∨ R) := by tauto

theorem yearDay_spec (d : Int) : daysToYear (yearDay d).1 + (yearDay d).2 = d ∧ 0 ≤ (yearDay d).2 ∧
    (yearDay d).2 < yearLen (yearDay d).1 := by
  simp only [yearDay]
  obtain ⟨n1, hn1⟩ : ∃ n, n = d / 146097 := ⟨_, rfl⟩
  rw [← hn1]
  obtain ⟨r1, hr1⟩ : ∃ r, r = d - 146097 * n1 := ⟨_, rfl⟩
  rw [← hr1]
  obtain ⟨n2, hn2⟩ : ∃ n, n = r1 / 36524 - r1 / 36524 / 4 := ⟨_, rfl⟩
  rw [← hn2]
  obtain ⟨r2, hr2⟩ : ∃ r, r = r1 - 36524 * n2 := ⟨_, rfl⟩
  rw [← hr2]
  obtain ⟨n3, hn3⟩ : ∃ n, n = r2 / 1461 := ⟨_, rfl⟩
  rw [← hn3]
  obtain ⟨r3, hr3⟩ : ∃ r, r = r2 - 1461 * n3 := ⟨_, rfl⟩
  rw [← hr3]
  obtain ⟨n4, hn4⟩ : ∃ n, n = r3 / 365 - r3 / 365 / 4 := ⟨_, rfl⟩
  rw [← hn4]
  have a1 : 0 ≤ r1 ∧ r1 < 146097 := by omega
  have a2 : 0 ≤ n2 ∧ n2 ≤ 3 ∧ 0 ≤ r2 ∧ r2 ≤ 36524 ∧ (n2 < 3 → r2 < 36524) := by omega
  have a3 : 0 ≤ n3 ∧ n3 ≤ 24 ∧ 0 ≤ r3 ∧ r3 ≤ 1460 ∧ (n3 = 24 → n2 < 3 → r3 < 1460) := by omega
  have a4 : 0 ≤ n4 ∧ n4 ≤ 3 ∧ 0 ≤ r3 - 365 * n4 ∧ r3 - 365 * n4 ≤ 365 ∧ (n4 < 3 → r3 - 365 * n4 < 365) ∧
    (n4 = 3 → n3 = 24 → n2 < 3 → r3 - 365 * n4 < 365) := by omega
  clear hn2 hn3 hn4
  obtain ⟨y, hy⟩ : ∃ y, y = 400 * n1 + 100 * n2 + 4 * n3 + n4 := ⟨_, rfl⟩
  rw [← hy]
  have e1 : y / 4 = 100 * n1 + 25 * n2 + n3 := by omega
  have e2 : y / 100 = 4 * n1 + n2 := by omega
  have e3 : y / 400 = n1 := by omega
  refine ⟨?_, a4.2.2.1, ?_⟩
  · rw [daysToYear, add_sub_cancel_right, e1, e2, e3]; omega
  · obtain ⟨l4, l100, l400⟩ := year_cycle n1 ⟨a2.1, a2.2.1⟩ ⟨a3.1, a3.2.1⟩ ⟨a4.1, a4.2.1⟩
    rw [← hy] at l4 l100 l400
    have : isLeap (y + 1) = true ↔ n4 = 3 ∧ (¬ n3 = 24 ∨ n2 = 3) := by
      rw [isLeap_iff, ne_eq, l4, l100, l400]; exact leap_logic
    rw [yearLen]
    have k := a4.2.2.2
    have k1 := a4.2.1
    have k2 := a2.2.1
    clear a1 a2 a3 a4 e1 e2 e3 l4 l100 l400 hr1 hr2 hr3 hn1 hy
    by_cases g : n4 = 3 ∧ (¬ n3 = 24 ∨ n2 = 3)
    · rw [if_pos (this.mpr g)]; push_cast; omega
    · rw [if_neg (fun h => g (this.mp h))]; push_cast; omega

theorem monthDay_spec : ∀ leap : Bool, ∀ yd < if leap then 366 else 365,
    1 ≤ (monthDay leap yd).1 ∧ (monthDay leap yd).1 ≤ 12 ∧ 1 ≤ (monthDay leap yd).2 ∧
    (monthDay leap yd).2 ≤ monthLen leap (monthDay leap yd).1 ∧
    daysToMonth leap (monthDay leap yd).1 + (monthDay leap yd).2 = yd + 1 := by decide +kernel

theorem monthDay_of : ∀ leap : Bool, ∀ m < 13, ∀ d < 32, (1 ≤ m ∧ 1 ≤ d ∧ d ≤ monthLen leap m) →
    monthDay leap (daysToMonth leap m + d - 1) = (m, d) ∧ daysToMonth leap m + d - 1 < if leap then 366 else 365 := by
  decide +kernel

theorem daysToMonth_succ : ∀ leap : Bool, ∀ m < 12, 1 ≤ m → daysToMonth leap (m + 1) = daysToMonth leap m + monthLen leap m := by
  decide +kernel

theorem daysToMonth_year : ∀ leap : Bool, daysToMonth leap 12 + 31 = if leap then 366 else 365 := by decide +kernel

/-- The reading of the model. -/
def clockAt (s : Int) : Clock :=
  let yd := yearDay (s / 86400 + 719162)
  let md := monthDay (isLeap yd.1) yd.2.toNat
  ⟨yd.1, md.1, md.2, (s % 86400 / 3600).toNat, (s % 86400 % 3600 / 60).toNat, (s % 86400 % 60).toNat⟩

theorem appendInt_two : ∀ n < 100, appendInt (n : Nat) 2 = two n := by decide +kernel

theorem monthLen_le (leap : Bool) (m : Nat) : monthLen leap m ≤ 31 := by
  simp only [monthLen]; split_ifs <;> omega

theorem clockAt_spec (s : Int) : (clockAt s).Valid ∧ (clockAt s).instant = s ∧ stampText s = (clockAt s).text := by
  obtain ⟨h1, h2, h3⟩ := yearDay_spec (s / 86400 + 719162)
  have hl : (yearDay (s / 86400 + 719162)).2.toNat < if isLeap (yearDay (s / 86400 + 719162)).1 then 366 else 365 := by
    rw [yearLen] at h3; omega
  obtain ⟨m1, m2, m3, m4, m5⟩ := monthDay_spec (isLeap (yearDay (s / 86400 + 719162)).1) _ hl
  have m6 := m4.trans (monthLen_le _ _)
  refine ⟨⟨m1, m2, m3, ?_, ?_, ?_, ?_⟩, ?_, ?_⟩
  · rw [monthLength_eq]; exact m4
  · simp only [clockAt]; omega
  · simp only [clockAt]; omega
  · simp only [clockAt]; omega
  · simp only [clockAt, Clock.instant]; omega
  · simp only [clockAt, Clock.text, stampText]
    rw [appendInt_two _ (by omega), appendInt_two _ (by omega)]
    have t : ∀ x : Int, 0 ≤ x → x < 100 → appendInt x 2 = two x.toNat := by
      intro x a b
      rw [← appendInt_two _ (by omega), Int.toNat_of_nonneg a]
    rw [t _ (by omega) (by omega), t _ (by omega) (by omega), t _ (by omega) (by omega)]

/-- A reading is determined by its instant. -/
theorem clock_unique {c c' : Clock} (h : c.Valid) (h' : c'.Valid) (e : c.instant = c'.instant) : c = c' := by
  obtain ⟨y, m, d, hh, mi, s⟩ := c
  obtain ⟨y', m', d', hh', mi', s'⟩ := c'
  obtain ⟨a1, a2, a3, a4, a5, a6, a7⟩ := h
  obtain ⟨b1, b2, b3, b4, b5, b6, b7⟩ := h'
  simp only [monthLength_eq] at *
  have ad := a4.trans (monthLen_le _ _)
  have bd := b4.trans (monthLen_le _ _)
  obtain ⟨k1, k2⟩ := monthDay_of (isLeap y) m (by omega) d (by omega) ⟨a1, a3, a4⟩
  obtain ⟨k1', k2'⟩ := monthDay_of (isLeap y') m' (by omega) d' (by omega) ⟨b1, b3, b4⟩
  simp only [Clock.instant] at e
  have days : daysToYear y + daysToMonth (isLeap y) m + d = daysToYear y' + daysToMonth (isLeap y') m' + d' := by omega
  have hs : hh = hh' ∧ mi = mi' ∧ s = s' := by omega
  have s1 := daysToYear_succ y
  have s2 := daysToYear_succ y'
  rw [← yearLen] at k2 k2'
  have hy : y = y' := by
    rcases lt_trichotomy y y' with g | g | g
    · have := daysToYear_mono (show y + 1 ≤ y' by omega); omega
    · exact g
    · have := daysToYear_mono (show y' + 1 ≤ y by omega); omega
  subst hy
  have : daysToMonth (isLeap y) m + d - 1 = daysToMonth (isLeap y) m' + d' - 1 := by omega
  rw [this, k1'] at k1
  simp only [Prod.mk.injEq] at k1
  obtain ⟨rfl, rfl⟩ := k1
  obtain ⟨rfl, rfl, rfl⟩ := hs
  rfl

theorem monthLen_pos (leap : Bool) (m : Nat) : 1 ≤ monthLen leap m := by
  simp only [monthLen]; split_ifs <;> omega

theorem tick_spec {c : Clock} (h : c.Valid) : c.tick.Valid ∧ c.tick.instant = c.instant + 1 := by
  obtain ⟨y, m, d, hh, mi, s⟩ := c
  obtain ⟨a1, a2, a3, a4, a5, a6, a7⟩ := h
  simp only [monthLength_eq] at *
  simp only [Clock.tick, Clock.Valid, Clock.instant, monthLength_eq]
  split_ifs with g1 g2 g3 g4 g5
  · refine ⟨⟨a1, a2, a3, a4, a5, a6, ?_⟩, ?_⟩ <;> push_cast <;> omega
  · refine ⟨⟨a1, a2, a3, a4, a5, ?_, ?_⟩, ?_⟩ <;> push_cast <;> omega
  · refine ⟨⟨a1, a2, a3, a4, ?_, ?_, ?_⟩, ?_⟩ <;> push_cast <;> omega
  · refine ⟨⟨a1, a2, ?_, ?_, ?_, ?_, ?_⟩, ?_⟩ <;> push_cast <;> omega
  · have := daysToMonth_succ (isLeap y) m g5 a1
    have := monthLen_pos (isLeap y) (m + 1)
    refine ⟨⟨?_, ?_, ?_, ?_, ?_, ?_, ?_⟩, ?_⟩ <;> push_cast <;> omega
  · have hm : m = 12 := by omega
    subst hm
    have e1 := daysToMonth_year (isLeap y)
    have e2 := daysToYear_succ y
    have e3 := monthLen_pos (isLeap (y + 1)) 1
    have e4 : monthLen (isLeap y) 12 = 31 := by simp [monthLen]
    have e5 : daysToMonth (isLeap (y + 1)) 1 = 0 := by simp [daysToMonth]
    rw [← yearLen] at e1
    refine ⟨⟨?_, ?_, ?_, ?_, ?_, ?_, ?_⟩, ?_⟩
    all_goals dsimp only
    all_goals omega

/-- **C146 (the clock).** The time text starts at `1970-01-01 00:00:00` for the instant 0 and moves like a calendar clock: for every
instant, before and after 1970, it is the text of a reading that exists, and one second later it is the text of the next reading. -/
theorem C146_clock : stampText 0 = "1970-01-01 00:00:00".toList ∧
    ∀ s, ∃ c : Clock, c.Valid ∧ stampText s = c.text ∧ stampText (s + 1) = c.tick.text := by
  refine ⟨by decide +kernel, fun s => ?_⟩
  obtain ⟨h1, h2, h3⟩ := clockAt_spec s
  obtain ⟨k1, k2, k3⟩ := clockAt_spec (s + 1)
  obtain ⟨t1, t2⟩ := tick_spec h1
  refine ⟨clockAt s, h1, h3, ?_⟩
  rw [k3, clock_unique k1 t1 (by rw [k2, t2, h2])]

/-! ## The text determines the reading -/

theorem textOf_inj : ∀ {ds es : List Nat}, (∀ d ∈ ds, d < 10) → (∀ d ∈ es, d < 10) → textOf ds = textOf es → ds = es := by
  intro ds
  induction ds with
  | nil => intro es _ _ h; cases es <;> simp_all [textOf]
  | cons d ds ih =>
    intro es h1 h2 h
    cases es with
    | nil => simp [textOf] at h
    | cons e es =>
      simp only [textOf, List.map_cons, List.cons.injEq] at h
      rw [digitChar_inj (h1 d (by simp)) (h2 e (by simp)) h.1,
        ih (fun d hd => h1 d (by simp [hd])) (fun d hd => h2 d (by simp [hd])) h.2]

/-- Cutting at the first `c`. -/
theorem cut_inj {c : Char} : ∀ {u v x y : List Char}, c ∉ u → c ∉ v → u ++ c :: x = v ++ c :: y → u = v ∧ x = y := by
  intro u
  induction u with
  | nil =>
    intro v x y _ hv h
    cases v with
    | nil => simpa using h
    | cons b v => simp only [List.nil_append, List.cons_append, List.cons.injEq] at h; simp [h.1] at hv
  | cons a u ih =>
    intro v x y hu hv h
    cases v with
    | nil => simp only [List.nil_append, List.cons_append, List.cons.injEq] at h; simp [h.1] at hu
    | cons b v =>
      simp only [List.cons_append, List.cons.injEq] at h
      simp only [List.mem_cons, not_or] at hu hv
      obtain ⟨e1, e2⟩ := ih hu.2 hv.2 h.2
      exact ⟨by rw [h.1, e1], e2⟩

theorem cut_twice {c : Char} {u v u' v' x y : List Char} (h1 : c ∉ u) (h2 : c ∉ u') (h3 : c ∉ v) (h4 : c ∉ v')
    (h : (u ++ c :: v) ++ c :: x = (u' ++ c :: v') ++ c :: y) : u ++ c :: v = u' ++ c :: v' ∧ x = y := by
  simp only [List.append_assoc, List.cons_append] at h
  obtain ⟨e1, e2⟩ := cut_inj h1 h2 h
  obtain ⟨e3, e4⟩ := cut_inj h3 h4 e2
  exact ⟨by rw [e1, e3], e4⟩

theorem not_mem_textOf {c : Char} (h : ∀ d < 10, Nat.digitChar d ≠ c) {ds : List Nat} (hd : ∀ d ∈ ds, d < 10) : c ∉ textOf ds := by
  simp only [textOf, List.mem_map, not_exists, not_and]
  exact fun d h1 h2 => h d (hd d h1) h2

theorem numberOf_zeros (k : Nat) (ds : List Nat) : numberOf (List.replicate k 0 ++ ds) = numberOf ds := by
  rw [numberOf_append]
  have : numberOf (List.replicate k 0) = 0 := by
    induction k with
    | zero => rfl
    | succ k ih => rw [List.replicate_succ']; rw [numberOf_append, ih]; rfl
  rw [this]; simp

theorem appendInt_text (x : Int) (w : Nat) : ∃ ds : List Nat, (∀ d ∈ ds, d < 10) ∧
    appendInt x w = (if x < 0 then ['-'] else []) ++ textOf ds ∧ numberOf ds = x.natAbs := by
  obtain ⟨ds, h1, h2, h3, h4⟩ := decN_text x.natAbs
  refine ⟨List.replicate (w - (Ind.decN x.natAbs).length) 0 ++ ds, ?_, ?_, ?_⟩
  · intro d hd
    rcases List.mem_append.mp hd with g | g
    · rw [List.eq_of_mem_replicate g]; omega
    · exact h2 d g
  · rw [appendInt, h3]
    simp only [textOf, List.map_append, List.map_replicate, List.append_assoc]
    rfl
  · rw [numberOf_zeros, h4]

theorem minus_digit {ds : List Nat} (h : ∀ d ∈ ds, d < 10) {x y : List Char} : textOf ds ++ x ≠ '-' :: y ∨ ds = [] := by
  cases ds with
  | nil => right; rfl
  | cons d ds =>
    left
    intro e
    simp only [textOf, List.map_cons, List.cons_append, List.cons.injEq] at e
    have : ∀ d < 10, Nat.digitChar d ≠ '-' := by decide
    exact this d (h d (by simp)) e.1

theorem appendInt_inj {x y : Int} {w : Nat} (h : appendInt x w = appendInt y w) : x = y := by
  obtain ⟨ds, a1, a2, a3⟩ := appendInt_text x w
  obtain ⟨es, b1, b2, b3⟩ := appendInt_text y w
  rw [a2, b2] at h
  have no : ∀ ds : List Nat, (∀ d ∈ ds, d < 10) → '-' ∉ textOf ds := fun ds => not_mem_textOf (by decide)
  by_cases hx : x < 0 <;> by_cases hy : y < 0 <;> simp only [hx, hy, if_true, if_false, List.nil_append, List.cons_append] at h
  · have := textOf_inj a1 b1 (List.cons.inj h).2
    subst this; omega
  · exact absurd (by rw [← h]; simp) (no es b1)
  · exact absurd (by rw [h]; simp) (no ds a1)
  · have := textOf_inj a1 b1 h
    subst this; omega

theorem two_inj {a b : Nat} (ha : a < 100) (hb : b < 100) (h : two a = two b) : a = b := by
  simp only [two, List.cons.injEq, and_true] at h
  have h1 := digitChar_inj (d := a / 10) (e := b / 10) (by omega) (by omega) h.1
  have h2 := digitChar_inj (d := a % 10) (e := b % 10) (by omega) (by omega) h.2
  omega

theorem clock_text_inj {c c' : Clock} (h : c.Valid) (h' : c'.Valid) (e : c.text = c'.text) : c = c' := by
  obtain ⟨y, m, d, hh, mi, s⟩ := c
  obtain ⟨y', m', d', hh', mi', s'⟩ := c'
  obtain ⟨a1, a2, a3, a4, a5, a6, a7⟩ := h
  obtain ⟨b1, b2, b3, b4, b5, b6, b7⟩ := h'
  simp only [monthLength_eq] at *
  have ad := a4.trans (monthLen_le _ _)
  have bd := b4.trans (monthLen_le _ _)
  simp only [Clock.text, List.append_assoc, List.cons_append] at e
  obtain ⟨e1, e2⟩ := List.append_inj' e (by simp [two])
  have := appendInt_inj e1
  subst this
  simp only [two, List.cons_append, List.nil_append, List.cons.injEq, true_and, and_true] at e2
  obtain ⟨m1, m2, d1, d2, h1, h2, i1, i2, s1, s2⟩ := e2
  have tw : ∀ {a b : Nat}, a < 100 → b < 100 → Nat.digitChar (a / 10) = Nat.digitChar (b / 10) →
      Nat.digitChar (a % 10) = Nat.digitChar (b % 10) → a = b := by
    intro a b ha hb g1 g2
    exact two_inj ha hb (by rw [two, two, g1, g2])
  have := tw (by omega) (by omega) m1 m2
  have := tw (by omega) (by omega) d1 d2
  have := tw (by omega) (by omega) h1 h2
  have := tw (by omega) (by omega) i1 i2
  have := tw (by omega) (by omega) s1 s2
  subst_vars
  rfl

/-- **C146 (the text is the instant).** On a clock that is never put back, different instants have different texts. -/
theorem C146_instant {s s' : Int} (h : stampText s = stampText s') : s = s' := by
  obtain ⟨h1, h2, h3⟩ := clockAt_spec s
  obtain ⟨k1, k2, k3⟩ := clockAt_spec s'
  rw [h3, k3] at h
  rw [← h2, ← k2, clock_text_inj h1 k1 h]

/-! ## The text of a candle -/

/-- Two numbers that a text with `prec` decimals does not tell apart: the same float64, or two finite ones within one unit of the last
place. -/
def ShownAlike (prec : Nat) (x y : B64) : Prop := x = y ∨ ∃ a b, x.val = .fin a ∧ y.val = .fin b ∧ |a - b| ≤ 1 / 10 ^ prec

theorem fmtFixed_chars (prec : Nat) (x : B64) : ∀ c ∈ fmtFixed prec x, c ≠ ' ' ∧ c ≠ '%' := by
  cases x with
  | nan => simp only [fmtFixed]; decide
  | inf s => cases s <;> simp only [fmtFixed] <;> decide
  | fin neg q hq =>
    obtain ⟨neg, ds, fs, h1, h2, h3, h4, h5, h6, h7, h8⟩ := C145_printed (x := .fin neg q hq) (a := B64.signed neg q) rfl prec
    rw [h7]
    have key : ∀ d < 10, Nat.digitChar d ≠ ' ' ∧ Nat.digitChar d ≠ '%' := by decide
    intro c hc
    simp only [List.mem_append, List.mem_cons, textOf, List.mem_map] at hc
    rcases hc with (hc | ⟨d, hd, rfl⟩) | rfl | ⟨d, hd, rfl⟩
    · cases neg <;> simp at hc; subst hc; decide
    · exact key d (h2 d hd)
    · decide
    · exact key d (h3 d hd)

theorem fmtFixed_alike {prec : Nat} {x y : B64} (h : fmtFixed prec x = fmtFixed prec y) : ShownAlike prec x y := by
  have dot : ∀ neg q hq, '.' ∈ fmtFixed prec (.fin neg q hq) := by
    intro neg q hq; simp [fmtFixed, fixedMag]
  have fin : ∀ {neg q hq neg' q' hq'}, fmtFixed prec (.fin neg q hq) = fmtFixed prec (.fin neg' q' hq') →
      ShownAlike prec (.fin neg q hq) (.fin neg' q' hq') := by
    intro neg q hq neg' q' hq' h
    obtain ⟨n, ds, fs, h1, h2, h3, h4, h5, h6, h7, h8⟩ := C145_printed (x := .fin neg q hq) (a := B64.signed neg q) rfl prec
    obtain ⟨n', ds', fs', k1, k2, k3, k4, k5, k6, k7, k8⟩ := C145_printed (x := .fin neg' q' hq') (a := B64.signed neg' q') rfl prec
    right
    refine ⟨_, _, rfl, rfl, ?_⟩
    generalize B64.signed neg q = a at *
    generalize B64.signed neg' q' = b at *
    rw [h7, k7] at h
    have no : ∀ ds : List Nat, (∀ d ∈ ds, d < 10) → '.' ∉ textOf ds := fun ds => not_mem_textOf (by decide)
    have no' : ∀ n : Bool, '.' ∉ (if n then ['-'] else [] : List Char) := by decide
    obtain ⟨e1, e2⟩ := cut_inj (by simp [no ds h2, no' n]) (by simp [no ds' k2, no' n']) h
    have e3 := textOf_inj h3 k3 e2
    subst e3
    have nm : ∀ ds : List Nat, (∀ d ∈ ds, d < 10) → '-' ∉ textOf ds := fun ds => not_mem_textOf (by decide)
    have same : n = n' ∧ ds = ds' := by
      cases n <;> cases n' <;> simp only [if_true, if_false, Bool.false_eq_true, List.nil_append, List.cons_append] at e1
      · exact ⟨rfl, textOf_inj h2 k2 e1⟩
      · exact absurd (by rw [e1]; simp) (nm ds h2)
      · exact absurd (by rw [← e1]; simp) (nm ds' k2)
      · exact ⟨rfl, textOf_inj h2 k2 (List.cons.inj e1).2⟩
    obtain ⟨rfl, rfl⟩ := same
    have close : |(|a|) - (|b|)| ≤ 1 / 10 ^ prec := by
      have e : (1 : ℚ) / 10 ^ prec = 1 / 2 / 10 ^ prec + 1 / 2 / 10 ^ prec := by ring
      rw [e]
      rw [abs_le] at h8 k8 ⊢
      constructor <;> linarith
    cases n with
    | true =>
      have ha : a ≤ 0 := by by_contra g; exact absurd (h6 (not_le.mp g)) (by simp)
      have hb : b ≤ 0 := by by_contra g; exact absurd (k6 (not_le.mp g)) (by simp)
      rw [abs_of_nonpos ha, abs_of_nonpos hb] at close
      rwa [abs_sub_comm, show b - a = -a - -b by ring]
    | false =>
      have ha : 0 ≤ a := by by_contra g; exact absurd (h5 (not_le.mp g)) (by simp)
      have hb : 0 ≤ b := by by_contra g; exact absurd (k5 (not_le.mp g)) (by simp)
      rwa [abs_of_nonneg ha, abs_of_nonneg hb] at close
  cases x with
  | nan =>
    cases y with
    | nan => exact .inl rfl
    | inf s => cases s <;> simp [fmtFixed] at h
    | fin n q hq => have := dot n q hq; rw [← h] at this; simp [fmtFixed] at this
  | inf s =>
    cases y with
    | nan => cases s <;> simp [fmtFixed] at h
    | inf s' => cases s <;> cases s' <;> first | exact .inl rfl | simp [fmtFixed] at h
    | fin n q hq => have := dot n q hq; rw [← h] at this; cases s <;> simp [fmtFixed] at this
  | fin n q hq =>
    cases y with
    | nan => have := dot n q hq; rw [h] at this; simp [fmtFixed] at this
    | inf s => have := dot n q hq; rw [h] at this; cases s <;> simp [fmtFixed] at this
    | fin n' q' hq' => exact fin h

theorem two_chars {n : Nat} (h : n < 100) : ' ' ∉ two n := by
  have key : ∀ d < 10, Nat.digitChar d ≠ ' ' := by decide
  have h1 := key (n / 10) (by omega)
  have h2 := key (n % 10) (by omega)
  simp only [two, List.mem_cons, List.not_mem_nil, or_false, not_or]
  exact ⟨h1.symm, h2.symm⟩

theorem appendInt_chars (x : Int) (w : Nat) : ' ' ∉ appendInt x w := by
  obtain ⟨ds, h1, h2, h3⟩ := appendInt_text x w
  rw [h2]
  have := not_mem_textOf (c := ' ') (by decide) h1
  split_ifs <;> simp [this]

/-- The two halves of the time text. -/
theorem stamp_split (s : Int) : ∃ u v, stampText s = u ++ ' ' :: v ∧ ' ' ∉ u ∧ ' ' ∉ v := by
  obtain ⟨⟨a1, a2, a3, a4, a5, a6, a7⟩, h2, h3⟩ := clockAt_spec s
  rw [monthLength_eq] at a4
  have ad := a4.trans (monthLen_le _ _)
  generalize clockAt s = c at *
  refine ⟨appendInt c.year 4 ++ '-' :: two c.month ++ '-' :: two c.day, two c.hour ++ ':' :: two c.min ++ ':' :: two c.sec, ?_, ?_, ?_⟩
  · rw [h3]; simp [Clock.text]
  · simp only [List.mem_append, List.mem_cons, not_or]
    exact ⟨⟨appendInt_chars _ _, by decide, two_chars (by omega)⟩, by decide, two_chars (by omega)⟩
  · simp only [List.mem_append, List.mem_cons, not_or]
    exact ⟨⟨two_chars (by omega), by decide, two_chars (by omega)⟩, by decide, two_chars (by omega)⟩

/-- The text of a candle in pieces. -/
theorem candle_pieces (zone : Int → Int) (e : Candle B64) : candleString zone e =
    stampText (e.timeUnix + zone e.timeUnix) ++ ' ' :: (("Open:".toList ++ fmtFixed 6 e.open_) ++ ' ' ::
    (("High:".toList ++ fmtFixed 6 e.high) ++ ' ' :: (("Low:".toList ++ fmtFixed 6 e.low) ++ ' ' ::
    (("Close:".toList ++ fmtFixed 6 e.close) ++ ' ' :: (("Volume:".toList ++ fmtFixed 6 e.volume) ++ ' ' ::
    (("Bull:".toList ++ (if e.isBull then "true".toList else "false".toList)) ++ ' ' ::
    ("ChangePercent:".toList ++ fmtFixed 4 (e.changePercent *. fl 100) ++ ['%']))))))) := by
  simp only [candleString, List.append_assoc, show " Open:".toList = ' ' :: "Open:".toList from rfl,
    show " High:".toList = ' ' :: "High:".toList from rfl, show " Low:".toList = ' ' :: "Low:".toList from rfl,
    show " Close:".toList = ' ' :: "Close:".toList from rfl, show " Volume:".toList = ' ' :: "Volume:".toList from rfl,
    show " Bull:".toList = ' ' :: "Bull:".toList from rfl,
    show " ChangePercent:".toList = ' ' :: "ChangePercent:".toList from rfl, List.cons_append]

theorem piece_chars {l : String} (h : ' ' ∉ l.toList) (prec : Nat) (x : B64) : ' ' ∉ l.toList ++ fmtFixed prec x := by
  simp only [List.mem_append, not_or]
  exact ⟨h, fun g => (fmtFixed_chars prec x ' ' g).1 rfl⟩

/-- What two candles with the same text have in common on any clock. -/
theorem candle_text {zone : Int → Int} {e e' : Candle B64} (h : candleString zone e = candleString zone e') :
    stampText (e.timeUnix + zone e.timeUnix) = stampText (e'.timeUnix + zone e'.timeUnix) ∧ e.isBull = e'.isBull ∧
    ShownAlike 6 e.open_ e'.open_ ∧ ShownAlike 6 e.high e'.high ∧ ShownAlike 6 e.low e'.low ∧
    ShownAlike 6 e.close e'.close ∧ ShownAlike 6 e.volume e'.volume ∧ ShownAlike 4 (e.changePercent *. fl 100) (e'.changePercent *. fl 100) := by
  rw [candle_pieces, candle_pieces] at h
  obtain ⟨u, v, s1, s2, s3⟩ := stamp_split (e.timeUnix + zone e.timeUnix)
  obtain ⟨u', v', t1, t2, t3⟩ := stamp_split (e'.timeUnix + zone e'.timeUnix)
  rw [s1, t1] at h
  obtain ⟨r1, h⟩ := cut_twice s2 t2 s3 t3 h
  obtain ⟨r3, h⟩ := cut_inj (piece_chars (by decide) _ _) (piece_chars (by decide) _ _) h
  obtain ⟨r4, h⟩ := cut_inj (piece_chars (by decide) _ _) (piece_chars (by decide) _ _) h
  obtain ⟨r5, h⟩ := cut_inj (piece_chars (by decide) _ _) (piece_chars (by decide) _ _) h
  obtain ⟨r6, h⟩ := cut_inj (piece_chars (by decide) _ _) (piece_chars (by decide) _ _) h
  obtain ⟨r7, h⟩ := cut_inj (piece_chars (by decide) _ _) (piece_chars (by decide) _ _) h
  have bull : ∀ b : Bool, ' ' ∉ "Bull:".toList ++ (if b then "true".toList else "false".toList) := by decide
  obtain ⟨r8, h⟩ := cut_inj (bull _) (bull _) h
  have bull2 : ∀ b b' : Bool, "Bull:".toList ++ (if b then "true".toList else "false".toList) =
      "Bull:".toList ++ (if b' then "true".toList else "false".toList) → b = b' := by decide
  refine ⟨by rw [s1, t1, r1], bull2 _ _ r8, fmtFixed_alike (List.append_cancel_left r3), fmtFixed_alike (List.append_cancel_left r4),
    fmtFixed_alike (List.append_cancel_left r5), fmtFixed_alike (List.append_cancel_left r6),
    fmtFixed_alike (List.append_cancel_left r7), fmtFixed_alike ?_⟩
  exact List.append_cancel_left (List.append_cancel_right h)

/-- **C146 (the candle).** If two candles have the same text on a clock that is never put back, they are of the same instant, have the
same direction, and their numbers are the same up to one unit of the last place printed. -/
theorem C146_candle {k : Int} {e e' : Candle B64} (h : candleString (fun _ => k) e = candleString (fun _ => k) e') :
    e.timeUnix = e'.timeUnix ∧ e.isBull = e'.isBull ∧ ShownAlike 6 e.open_ e'.open_ ∧ ShownAlike 6 e.high e'.high ∧ ShownAlike 6 e.low e'.low ∧
    ShownAlike 6 e.close e'.close ∧ ShownAlike 6 e.volume e'.volume ∧ ShownAlike 4 (e.changePercent *. fl 100) (e'.changePercent *. fl 100) := by
  obtain ⟨h1, h2⟩ := candle_text h
  exact ⟨by have := C146_instant h1; omega, h2⟩

/-- **C146 (refuted for summer time).** Where the clock is put back by `k` seconds between two instants that are `k` seconds apart, the
texts of two candles with the same numbers are equal, and only there. -/
theorem C146_put_back (zone : Int → Int) (e : Candle B64) (t : Int) :
    candleString zone e = candleString zone { e with timeUnix := t } ↔ t - e.timeUnix = zone e.timeUnix - zone t := by
  constructor
  · intro h
    have := C146_instant (candle_text h).1
    dsimp only at this
    omega
  · intro h
    rw [candle_pieces, candle_pieces]
    dsimp only
    rw [show e.timeUnix + zone e.timeUnix = t + zone t by omega]

/-- Different candles of the same text: one closed at 0.00000024, the other at 0. -/
example : candleString (fun _ => 0) { (Candle.zero 1729987200 : Candle B64) with close := B64.ofMag false (1 / 4194304) } =
      candleString (fun _ => 0) (Candle.zero 1729987200) ∧ B64.ofMag false (1 / 4194304) ≠ fl 0 := by decide +kernel

/-- The clock of Berlin in the last week of October 2024: two hours ahead of UTC before 27 October 01:00 UTC, one hour from then on. -/
def berlin (s : Int) : Int := if s < 1729990800 then 7200 else 3600

/-- Two hourly candles with the same text. -/
example : ∃ e e' : Candle B64, e.timeUnix + 3600 = e'.timeUnix ∧ candleString berlin e = candleString berlin e' :=
  ⟨Candle.zero 1729987200, { (Candle.zero 1729987200 : Candle B64) with timeUnix := 1729990800 }, rfl,
    (C146_put_back berlin _ _).mpr (by decide)⟩

example : (stampText 1729987200, stampText (-1), stampText 951782400) =
    ("2024-10-27 00:00:00".toList, "1969-12-31 23:59:59".toList, "2000-02-29 00:00:00".toList) := by decide +kernel

end Verif.Props
