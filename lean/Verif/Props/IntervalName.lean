import Verif.Klines.Duration
import Mathlib.Tactic.IntervalCases
import Mathlib.Tactic.Linarith

/-!
# The text of an interval says which interval it is (C142)
-/

namespace Verif.Props
open Verif.Ind (decN)
open Verif.Klines

/-- Reads numbers with units from the left, as a person does: `total` so far in nanoseconds, the digits `n` of the number being
read, the power of ten `s` of its decimals, and whether its point has been passed. -/
def readText : List Char → ℚ → Nat → Nat → Bool → ℚ
  | [], total, _, _, _ => total
  | '.' :: r, total, n, s, _ => readText r total n s true
  | 'h' :: r, total, n, s, _ => readText r (total + n / s * 3600000000000) 0 1 false
  | 'm' :: 's' :: r, total, n, s, _ => readText r (total + n / s * 1000000) 0 1 false
  | 'm' :: r, total, n, s, _ => readText r (total + n / s * 60000000000) 0 1 false
  | 'µ' :: 's' :: r, total, n, s, _ => readText r (total + n / s * 1000) 0 1 false
  | 'n' :: 's' :: r, total, n, s, _ => readText r (total + n / s) 0 1 false
  | 's' :: r, total, n, s, _ => readText r (total + n / s * 1000000000) 0 1 false
  | c :: r, total, n, s, point => readText r total (n * 10 + (c.toNat - '0'.toNat)) (if point then s * 10 else s) point

/-- The duration a text names, in nanoseconds. -/
def readDuration : List Char → ℚ
  | '-' :: r => -readText r 0 0 1 false
  | r => readText r 0 0 1 false

theorem readText_digit {d : Nat} (hd : d < 10) (r : List Char) (t : ℚ) (n s : Nat) (p : Bool) :
    readText (Nat.digitChar d :: r) t n s p = readText r t (n * 10 + d) (if p then s * 10 else s) p := by
  interval_cases d <;> rfl

theorem readText_digits (ds : List Nat) (hd : ∀ d ∈ ds, d < 10) (r : List Char) (t : ℚ) : ∀ (n s : Nat) (p : Bool),
    readText (ds.map Nat.digitChar ++ r) t n s p =
      readText r t (ds.foldl (fun a d => a * 10 + d) n) (if p then s * 10 ^ ds.length else s) p := by
  induction ds with
  | nil => intro n s p; simp
  | cons d ds ih =>
    intro n s p
    rw [List.map_cons, List.cons_append, readText_digit (hd d (by simp)), ih (fun x hx => hd x (by simp [hx]))]
    cases p <;> simp [pow_succ, mul_comm, mul_assoc]

theorem foldl_digits (ds : List Nat) (n : Nat) :
    ds.foldl (fun a d => a * 10 + d) n = n * 10 ^ ds.length + Nat.ofDigits 10 ds.reverse := by
  induction ds generalizing n with
  | nil => simp
  | cons d ds ih =>
    rw [List.foldl_cons, ih, List.reverse_cons, Nat.ofDigits_append, List.length_reverse, Nat.ofDigits_singleton, List.length_cons]
    ring

theorem readText_decN (a : Nat) (r : List Char) (t : ℚ) : readText (decN a ++ r) t 0 1 false = readText r t a 1 false := by
  unfold decN
  split
  · next h => subst h; rfl
  · rw [readText_digits _ (fun d hd => Nat.digits_lt_base (by norm_num) (List.mem_reverse.mp hd)), foldl_digits,
      List.reverse_reverse, Nat.ofDigits_digits]
    simp

/-- What the loop of `fmtFrac` writes. -/
theorem fracLoop_spec (k : Nat) : ∀ (v : Nat) (p : Bool) (buf : List Char), ∃ ds : List Nat,
    (∀ d ∈ ds, d < 10) ∧ ds.length ≤ k ∧ (p = true → ds.length = k) ∧
    Nat.ofDigits 10 ds.reverse * 10 ^ (k - ds.length) = v % 10 ^ k ∧
    fracLoop k v p buf = (v / 10 ^ k, p || !ds.isEmpty, ds.map Nat.digitChar ++ buf) := by
  induction k with
  | zero => intro v p buf; exact ⟨[], by simp, le_rfl, fun _ => rfl, by simp [Nat.mod_one], by simp [fracLoop]⟩
  | succ k ih =>
    intro v p buf
    have hm : v % 10 ^ (k + 1) = v % 10 + 10 * (v / 10 % 10 ^ k) := by
      rw [pow_succ, mul_comm, Nat.mod_mul]
    have hq : v / 10 ^ (k + 1) = v / 10 / 10 ^ k := by rw [pow_succ, mul_comm, Nat.div_div_eq_div_mul]
    by_cases hc : (p || v % 10 != 0) = true
    · obtain ⟨ds, h1, h2, h3, h4, h5⟩ := ih (v / 10) true (Nat.digitChar (v % 10) :: buf)
      have hl := h3 rfl
      refine ⟨ds ++ [v % 10], ?_, by simp [hl], fun _ => by simp [hl], ?_, ?_⟩
      · intro d hd
        rcases List.mem_append.mp hd with hd | hd
        · exact h1 d hd
        · rw [List.mem_singleton.mp hd]; exact Nat.mod_lt _ (by norm_num)
      · rw [hm, ← h4, hl]
        simp [Nat.ofDigits_cons, hl]
      · rw [fracLoop]
        simp only [hc, if_true]
        rw [h5, hq]
        simp
    · have hp : p = false := by cases p <;> simp_all
      have hv : v % 10 = 0 := by simpa [hp] using hc
      obtain ⟨ds, h1, h2, -, h4, h5⟩ := ih (v / 10) false buf
      refine ⟨ds, h1, by omega, fun h => by simp [hp] at h, ?_, ?_⟩
      · rw [hm, ← h4, hv, Nat.succ_sub h2, pow_succ]; ring
      · rw [fracLoop]
        simp only [hc]
        rw [hp, hv] at *
        simp only [Bool.false_or] at h5 ⊢
        rw [← hq] at h5
        simpa using h5

/-- A printed number begins with a digit. -/
theorem decN_head (a : Nat) : ∃ d l, d < 10 ∧ decN a = Nat.digitChar d :: l := by
  unfold decN
  split
  · exact ⟨0, [], by norm_num, rfl⟩
  · next h =>
    cases hr : (Nat.digits 10 a).reverse with
    | nil => exact absurd (List.reverse_eq_nil_iff.mp hr) (Nat.digits_ne_nil_iff_ne_zero.mpr h)
    | cons d l =>
      refine ⟨d, l.map Nat.digitChar, ?_, by simp⟩
      exact Nat.digits_lt_base (by norm_num) (List.mem_reverse.mp (by rw [hr]; simp) : d ∈ Nat.digits 10 a)

theorem readText_minutes (a : Nat) (r : List Char) (t : ℚ) (n : Nat) :
    readText ('m' :: (decN a ++ r)) t n 1 false = readText (decN a ++ r) (t + n * 60000000000) 0 1 false := by
  obtain ⟨d, l, hd, e⟩ := decN_head a
  rw [e, List.cons_append]
  have : readText ('m' :: Nat.digitChar d :: (l ++ r)) t n 1 false =
      readText (Nat.digitChar d :: (l ++ r)) (t + n / (1 : Nat) * 60000000000) 0 1 false := by
    interval_cases d <;> rfl
  rw [this]; simp

/-- Reading a number written by `fmtInt` and `fmtFrac` before a unit of `10 ^ prec` nanoseconds. -/
theorem readText_frac (unit : List Char) (u prec : Nat) (m : Nat) (t : ℚ)
    (hu : ∀ (n s : Nat) (p : Bool), readText unit t n s p = t + n / s * 10 ^ prec) :
    (fmtFrac unit u prec).2 = u / 10 ^ prec ∧
      readText (fmtInt (fmtFrac unit u prec).1 m) t 0 1 false = t + (m * 10 ^ prec + u % 10 ^ prec : Nat) := by
  obtain ⟨ds, h1, h2, -, h4, h5⟩ := fracLoop_spec prec u false unit
  refine ⟨by simp [fmtFrac, h5], ?_⟩
  rw [fmtInt, readText_decN, ← h4]
  simp only [fmtFrac, h5]
  cases ds with
  | nil => simp [hu]
  | cons d ds =>
    simp only [List.isEmpty_cons, Bool.not_false, Bool.or_true, if_true]
    show readText (List.map Nat.digitChar (d :: ds) ++ unit) t m 1 true = _
    rw [readText_digits _ h1, hu, foldl_digits]
    generalize Nat.ofDigits 10 (d :: ds).reverse = D
    generalize (d :: ds).length = n at h2
    obtain ⟨j, rfl⟩ : ∃ j, prec = n + j := ⟨prec - n, by omega⟩
    have h10 : (10 : ℚ) ^ n ≠ 0 := pow_ne_zero _ (by norm_num)
    simp only [if_true, one_mul, Nat.add_sub_cancel_left]
    push_cast
    field_simp
    ring

theorem readText_large (u : Nat) : readText (largeText u) 0 0 1 false = u := by
  have key : ∀ (m : Nat) (t : ℚ), readText (fmtInt (fmtFrac ['s'] u 9).1 m) t 0 1 false =
      t + (m * 10 ^ 9 + u % 10 ^ 9 : Nat) := fun m t => (readText_frac ['s'] u 9 m t fun n s p => by
    show t + n / s * 1000000000 = _; norm_num).2
  have hv : (fmtFrac ['s'] u 9).2 = u / 10 ^ 9 := (readText_frac ['s'] u 9 0 0 fun n s p => by
    show (0 : ℚ) + n / s * 1000000000 = _; norm_num).1
  have hd := Nat.div_add_mod u (10 ^ 9)
  unfold largeText
  simp only [hv]
  generalize u / 10 ^ 9 = v at hd
  generalize (fmtFrac ['s'] u 9).1 = buf at key
  generalize u % 10 ^ 9 = w at hd key
  have h1 := Nat.div_add_mod v 60
  have h2 := Nat.div_add_mod (v / 60) 60
  split
  · split
    · rw [fmtInt, readText_decN]
      show readText (fmtInt ('m' :: fmtInt buf (v % 60)) (v / 60 % 60)) (0 + (v / 60 / 60 : Nat) / (1 : Nat) * 3600000000000) 0 1 false = _
      rw [fmtInt, readText_decN]
      conv_lhs => rw [fmtInt]
      rw [readText_minutes, ← fmtInt, key]
      rw [← hd]
      push_cast [Nat.cast_one]
      have e1 : (v : ℚ) = 60 * ((v / 60 : Nat) : ℚ) + (v % 60 : Nat) := by exact_mod_cast h1.symm
      have e2 : ((v / 60 : Nat) : ℚ) = 60 * ((v / 60 / 60 : Nat) : ℚ) + (v / 60 % 60 : Nat) := by exact_mod_cast h2.symm
      rw [e1, e2]; ring
    · next h =>
      rw [fmtInt, readText_decN]
      conv_lhs => rw [fmtInt]
      rw [readText_minutes, ← fmtInt, key]
      have h3 : v / 60 / 60 = 0 := by omega
      rw [h3] at h2
      rw [← hd]
      push_cast
      have e1 : (v : ℚ) = 60 * ((v / 60 : Nat) : ℚ) + (v % 60 : Nat) := by exact_mod_cast h1.symm
      have e2 : ((v / 60 % 60 : Nat) : ℚ) = (v / 60 : Nat) := by rw [← h2]; simp
      rw [e1, e2]; ring
  · next h =>
    have h3 : v % 60 = v := by omega
    rw [key, h3, ← hd]
    push_cast; ring

theorem readText_small (u : Nat) : readText (smallText u) 0 0 1 false = u := by
  have key : ∀ (unit : List Char) (prec : Nat),
      (∀ (n s : Nat) (p : Bool), readText unit 0 n s p = (0 : ℚ) + n / s * 10 ^ prec) →
      readText (fmtInt (fmtFrac unit u prec).1 (fmtFrac unit u prec).2) 0 0 1 false = u := by
    intro unit prec hu
    obtain ⟨h1, h2⟩ := readText_frac unit u prec (fmtFrac unit u prec).2 0 hu
    rw [h2, h1, mul_comm, Nat.div_add_mod]; simp
  unfold smallText
  split
  next prec unit h =>
  refine key unit prec ?_
  split at h
  · cases h
    exact fun n s p => by show (0 : ℚ) + n / s = _; simp
  · split at h
    · cases h
      exact fun n s p => by show (0 : ℚ) + n / s * 1000 = _; norm_num
    · cases h
      exact fun n s p => by show (0 : ℚ) + n / s * 1000000 = _; norm_num

theorem largeText_head (u : Nat) : ∃ d l, d < 10 ∧ largeText u = Nat.digitChar d :: l := by
  unfold largeText fmtInt
  dsimp only
  split
  · split
    all_goals
      obtain ⟨d, l, hd, e⟩ := decN_head _
      exact ⟨d, _, hd, by rw [e]; rfl⟩
  · obtain ⟨d, l, hd, e⟩ := decN_head _
    exact ⟨d, _, hd, by rw [e]; rfl⟩

theorem smallText_head (u : Nat) : ∃ d l, d < 10 ∧ smallText u = Nat.digitChar d :: l := by
  unfold smallText fmtInt
  dsimp only
  obtain ⟨d, l, hd, e⟩ := decN_head _
  exact ⟨d, _, hd, by rw [e]; rfl⟩

/-- **C142.** The text of an interval names its duration, to the nanosecond. -/
theorem C142_read_back (d : Int) : readDuration (intervalString d) = d := by
  have text : ∃ t, intervalString d = (if d < 0 then '-' :: t else t) ∧ readText t 0 0 1 false = d.natAbs ∧
      ∃ k l, k < 10 ∧ t = Nat.digitChar k :: l := by
    unfold intervalString
    dsimp only
    refine ⟨_, rfl, ?_⟩
    split
    · split
      · next h => rw [h]; exact ⟨by show (0 : ℚ) + (0 : Nat) / (1 : Nat) * 1000000000 = _; simp, 0, ['s'], by norm_num, rfl⟩
      · exact ⟨readText_small _, smallText_head _⟩
    · exact ⟨readText_large _, largeText_head _⟩
  obtain ⟨t, e, hr, k, l, hk, ht⟩ := text
  rw [e]
  split
  · next h =>
    show -readText t 0 0 1 false = _
    rw [hr]
    have : (d.natAbs : ℚ) = ((d.natAbs : Int) : ℚ) := by simp
    rw [this, show (d.natAbs : Int) = -d by omega]
    simp
  · next h =>
    have : readDuration t = readText t 0 0 1 false := by
      rw [ht]; interval_cases k <;> rfl
    rw [this, hr]
    have : (d.natAbs : ℚ) = ((d.natAbs : Int) : ℚ) := by simp
    rw [this, show (d.natAbs : Int) = d by omega]

/-- **C142** (names are unique): two intervals with the same text are the same interval. -/
theorem C142_injective {d d' : Int} (h : intervalString d = intervalString d') : d = d' := by
  have := C142_read_back d
  rw [h, C142_read_back] at this
  exact_mod_cast this.symm

/-- The texts of a tenth of a second, of a minute, of a quarter of an hour, of a day and of a negative interval. -/
example : intervalString 100000000 = "100ms".toList ∧ intervalString 60000000000 = "1m0s".toList ∧
    intervalString 900000000000 = "15m0s".toList ∧ intervalString 86400000000000 = "24h0m0s".toList ∧
    intervalString (-1500) = "-1.5µs".toList ∧ intervalString 90061000001000 = "25h1m1.000001s".toList ∧ intervalString 0 = "0s".toList := by
  decide +kernel

end Verif.Props
