import Verif.Klines.CandleText
import Verif.Props.Decimal
import Verif.Props.IntervalName
import Verif.Props.Names

/-!
# Numbers as text (C145)
-/

namespace Verif.Props
open Verif Verif.Klines GoFloat
open Verif.Ind (decN)

/-! ## Digits -/

/-- The number with the given digits, most significant first. -/
def numberOf (ds : List Nat) : Nat := ds.foldl (fun a d => a * 10 + d) 0

/-- The characters of digits. -/
def textOf (ds : List Nat) : List Char := ds.map Nat.digitChar

theorem digitOf_digitChar {d : Nat} (hd : d < 10) : digitOf (Nat.digitChar d) = some d := by
  have : ∀ d < 10, digitOf (Nat.digitChar d) = some d := by decide
  exact this d hd

theorem digitChar_ne_dot {d : Nat} (hd : d < 10) : Nat.digitChar d ≠ '.' := by
  have : ∀ d < 10, Nat.digitChar d ≠ '.' := by decide
  exact this d hd

theorem numberOf_append (ds fs : List Nat) : numberOf (ds ++ fs) = numberOf ds * 10 ^ fs.length + numberOf fs := by
  rw [numberOf, List.foldl_append, foldl_digits, numberOf, numberOf, foldl_digits fs 0]
  simp

theorem numberOf_lt (ds : List Nat) (hd : ∀ d ∈ ds, d < 10) : numberOf ds < 10 ^ ds.length := by
  rw [numberOf, foldl_digits]
  simp only [Nat.zero_mul, Nat.zero_add]
  have := Nat.ofDigits_lt_base_pow_length (b := 10) (l := ds.reverse) (by norm_num) (fun d h => hd d (by simpa using h))
  simpa using this

theorem padDigits_text (k : Nat) : ∀ v, ∃ ds : List Nat, ds.length = k ∧ (∀ d ∈ ds, d < 10) ∧ padDigits k v = textOf ds ∧
    numberOf ds = v % 10 ^ k := by
  induction k with
  | zero => exact fun v => ⟨[], rfl, by simp, rfl, by simp [numberOf, Nat.mod_one]⟩
  | succ k ih =>
    intro v
    obtain ⟨ds, h1, h2, h3, h4⟩ := ih (v / 10)
    refine ⟨ds ++ [v % 10], by simp [h1], ?_, by rw [padDigits, h3, textOf, textOf, List.map_append]; rfl, ?_⟩
    · intro d hd
      rcases List.mem_append.mp hd with hd | hd
      · exact h2 d hd
      · rw [List.mem_singleton.mp hd]; exact Nat.mod_lt _ (by norm_num)
    · rw [numberOf_append, h4]
      have : numberOf [v % 10] = v % 10 := by simp [numberOf]
      rw [this, pow_succ 10 k, mul_comm (10 ^ k) 10, Nat.mod_mul]
      simp; ring

theorem decN_text (a : Nat) : ∃ ds : List Nat, ds ≠ [] ∧ (∀ d ∈ ds, d < 10) ∧ decN a = textOf ds ∧ numberOf ds = a := by
  unfold decN
  split
  · next h => exact ⟨[0], by simp, by simp, rfl, by simp [numberOf, h]⟩
  · next h =>
    refine ⟨(Nat.digits 10 a).reverse, by simpa [Nat.digits_ne_nil_iff_ne_zero] using h,
      fun d hd => Nat.digits_lt_base (by norm_num) (List.mem_reverse.mp hd), rfl, ?_⟩
    rw [numberOf, foldl_digits, List.reverse_reverse, Nat.ofDigits_digits]
    simp

/-! ## Reading -/

theorem readMant_digits (ds : List Nat) (hd : ∀ d ∈ ds, d < 10) (r : List Char) : ∀ (m k : Nat) (dot saw : Bool),
    readMant (textOf ds ++ r) m k dot saw = readMant r (ds.foldl (fun a d => a * 10 + d) m)
      (if dot then k + ds.length else k) dot (saw || !ds.isEmpty) := by
  induction ds with
  | nil => intro m k dot saw; simp [textOf]
  | cons d ds ih =>
    intro m k dot saw
    have h1 : textOf (d :: ds) ++ r = Nat.digitChar d :: (textOf ds ++ r) := rfl
    rw [h1, readMant, if_neg (digitChar_ne_dot (hd d (by simp))), digitOf_digitChar (hd d (by simp))]
    dsimp only
    rw [ih (fun x hx => hd x (by simp [hx]))]
    have e1 : k + 1 + ds.length = k + (d :: ds).length := by rw [List.length_cons]; omega
    cases dot
    · simp
    · simp only [if_true, e1]; simp

theorem foldl_ge (ds : List Nat) (e : Nat) : e ≤ ds.foldl (fun a d => a * 10 + d) e := by
  induction ds generalizing e with
  | nil => exact le_rfl
  | cons d ds ih => exact le_trans (by omega) (ih (e * 10 + d))

theorem readExp_digits (ds : List Nat) (hd : ∀ d ∈ ds, d < 10) : ∀ e : Nat,
    ds.foldl (fun a d => a * 10 + d) e < 100000 → readExp (textOf ds) e = some (ds.foldl (fun a d => a * 10 + d) e) := by
  induction ds with
  | nil => intro e _; rfl
  | cons d ds ih =>
    intro e he
    have h1 : textOf (d :: ds) = Nat.digitChar d :: textOf ds := rfl
    have h2 := foldl_ge ds (e * 10 + d)
    rw [List.foldl_cons] at he ⊢
    rw [h1, readExp, digitOf_digitChar (hd d (by simp))]
    dsimp only
    rw [if_pos (by omega)]
    exact ih (fun x hx => hd x (by simp [hx])) _ he

/-- How an exponent may be written: left out, or `e` or `E`, a sign that may be left out if it is `+`, and digits. -/
inductive ExpText : Int → List Char → Prop
  | none : ExpText 0 []
  | pos {c : Char} {ds : List Nat} : c = 'e' ∨ c = 'E' → ds ≠ [] → (∀ d ∈ ds, d < 10) → ExpText (numberOf ds) (c :: textOf ds)
  | plus {c : Char} {ds : List Nat} : c = 'e' ∨ c = 'E' → ds ≠ [] → (∀ d ∈ ds, d < 10) → ExpText (numberOf ds) (c :: '+' :: textOf ds)
  | minus {c : Char} {ds : List Nat} : c = 'e' ∨ c = 'E' → ds ≠ [] → (∀ d ∈ ds, d < 10) →
      ExpText (-(numberOf ds : Int)) (c :: '-' :: textOf ds)

/-- A number as it may be written: digits, a point with digits behind it or neither, an exponent; at least one digit before the
exponent. `q` is the number. -/
inductive NumText : ℚ → List Char → Prop
  | whole {ds : List Nat} {e : Int} {t : List Char} : ds ≠ [] → (∀ d ∈ ds, d < 10) → ExpText e t →
      NumText (numberOf ds * 10 ^ e) (textOf ds ++ t)
  | point {ds fs : List Nat} {e : Int} {t : List Char} : ds ++ fs ≠ [] → (∀ d ∈ ds, d < 10) → (∀ d ∈ fs, d < 10) → ExpText e t →
      NumText ((numberOf ds + numberOf fs / 10 ^ fs.length) * 10 ^ e) (textOf ds ++ '.' :: (textOf fs ++ t))

theorem splitSign_digits {d : Nat} (hd : d < 10) (r : List Char) : splitSign (Nat.digitChar d :: r) = (false, Nat.digitChar d :: r) := by
  interval_cases d <;> rfl

theorem readTail_exp {e : Int} {t : List Char} (h : ExpText e t) (he : |e| < 100000) : readTail t = some e := by
  have key : ∀ {ds : List Nat}, ds ≠ [] → (∀ d ∈ ds, d < 10) → numberOf ds < 100000 → (textOf ds).isEmpty = false ∧
      readExp (textOf ds) 0 = some (numberOf ds) ∧ splitSign (textOf ds) = (false, textOf ds) := by
    intro ds h1 h2 h3
    refine ⟨by cases ds <;> simp_all [textOf], readExp_digits _ h2 0 h3, ?_⟩
    cases ds with
    | nil => exact absurd rfl h1
    | cons d ds => exact splitSign_digits (h2 d (by simp)) _
  cases h with
  | none => rfl
  | @pos c ds h1 h2 h3 =>
    obtain ⟨k1, k2, k3⟩ := key h2 h3 (by rw [abs_of_nonneg (by omega)] at he; omega)
    simp only [readTail, if_pos h1, k1, k2, k3]
    rfl
  | @plus c ds h1 h2 h3 =>
    obtain ⟨k1, k2, k3⟩ := key h2 h3 (by rw [abs_of_nonneg (by omega)] at he; omega)
    simp only [readTail, if_pos h1, k1, k2, splitSign]
    rfl
  | @minus c ds h1 h2 h3 =>
    obtain ⟨k1, k2, k3⟩ := key h2 h3 (by rw [abs_neg, abs_of_nonneg (by omega)] at he; omega)
    simp only [readTail, if_pos h1, k1, k2, splitSign]
    rfl

/-- Reading stops before an exponent. -/
theorem readMant_exp {e : Int} {t : List Char} (h : ExpText e t) (m k : Nat) (dot saw : Bool) :
    readMant t m k dot saw = (m, k, saw, t) := by
  have key : ∀ {c : Char} {r : List Char}, c = 'e' ∨ c = 'E' → readMant (c :: r) m k dot saw = (m, k, saw, c :: r) := by
    rintro c r (rfl | rfl) <;> rfl
  cases h with
  | none => rfl
  | pos h1 => exact key h1
  | plus h1 => exact key h1
  | minus h1 => exact key h1

/-- The exponent of a number text is below 100000. -/
def SmallExp (s : List Char) : Prop := ∀ p e t, s = p ++ t → ExpText e t → |e| < 100000

theorem readNumber_text {q : ℚ} {s : List Char} (h : NumText q s) (hs : SmallExp s) : readNumber s = some q := by
  cases h with
  | @whole ds e t h1 h2 h3 =>
    have he := readTail_exp h3 (hs _ _ _ rfl h3)
    have hn : ds.isEmpty = false := by cases ds <;> simp_all
    simp only [readNumber, readMant_digits _ h2, readMant_exp h3, hn, he]
    simp [numberOf]
  | @point ds fs e t h1 h2 h3 h4 =>
    have he := readTail_exp h4 (hs (textOf ds ++ '.' :: textOf fs) _ _ (by simp) h4)
    have hn : (!ds.isEmpty || !fs.isEmpty) = true := by
      cases ds <;> cases fs <;> simp_all
    have e1 : readMant ('.' :: (textOf fs ++ t)) (ds.foldl (fun a d => a * 10 + d) 0) 0 false (!ds.isEmpty) =
        readMant (textOf fs ++ t) (ds.foldl (fun a d => a * 10 + d) 0) 0 true (!ds.isEmpty) := by
      rw [readMant]; simp
    have e2 : fs.foldl (fun a d => a * 10 + d) (ds.foldl (fun a d => a * 10 + d) 0) = numberOf (ds ++ fs) := by
      rw [numberOf, List.foldl_append]
    simp only [readNumber, readMant_digits _ h2, Bool.false_or, Bool.false_eq_true, if_false, e1, readMant_digits _ h3,
      readMant_exp h4, he, hn, if_true, e2, Option.map_some, numberOf_append, Nat.zero_add]
    congr 1
    rw [zpow_sub₀ (by norm_num), zpow_natCast]
    push_cast
    field_simp

/-- What `parseFloat` does with a number that has been read. -/
def nearest64 (neg : Bool) (q : ℚ) : Option B64 := if roundMag q ≤ maxFinite then some (B64.ofMag neg q) else none

theorem numText_head {q : ℚ} {s : List Char} (h : NumText q s) : ∃ c r, s = c :: r ∧ (c = '.' ∨ ∃ d < 10, c = Nat.digitChar d) := by
  cases h with
  | @whole ds e t h1 h2 h3 =>
    cases ds with
    | nil => exact absurd rfl h1
    | cons d ds => exact ⟨_, _, rfl, .inr ⟨d, h2 d (by simp), rfl⟩⟩
  | @point ds fs e t h1 h2 h3 h4 =>
    cases ds with
    | nil => exact ⟨_, _, rfl, .inl rfl⟩
    | cons d ds => exact ⟨_, _, rfl, .inr ⟨d, h2 d (by simp), rfl⟩⟩

theorem parseFloat_text {q : ℚ} {s : List Char} (h : NumText q s) (hs : SmallExp s) (neg : Bool) :
    parseFloat ((if neg then ['-'] else []) ++ s) = nearest64 neg q ∧ parseFloat ('+' :: s) = nearest64 false q := by
  obtain ⟨c, r, rfl, hc⟩ := numText_head h
  have hlow : c.toLower ≠ 'i' ∧ c.toLower ≠ 'n' ∧ c ≠ '+' ∧ c ≠ '-' := by
    rcases hc with rfl | ⟨d, hd, rfl⟩
    · decide
    · have : ∀ d < 10, (Nat.digitChar d).toLower ≠ 'i' ∧ (Nat.digitChar d).toLower ≠ 'n' ∧ Nat.digitChar d ≠ '+' ∧
        Nat.digitChar d ≠ '-' := by decide
      exact this d hd
  obtain ⟨l1, l2, l3, l4⟩ := hlow
  have hsp : splitSign (c :: r) = (false, c :: r) := by
    rw [splitSign.eq_def]
    split
    · next heq => exact absurd (List.cons.inj heq).1 l3
    · next heq => exact absurd (List.cons.inj heq).1 l4
    · rfl
  have hi : ¬ (lowerText (c :: r) = ['i', 'n', 'f'] ∨ lowerText (c :: r) = ['i', 'n', 'f', 'i', 'n', 'i', 't', 'y']) := by
    rintro (h | h) <;> exact l1 (List.cons.inj h).1
  have hq := readNumber_text h hs
  have hm : ∀ neg, notTooLarge (B64.ofMag neg q) = nearest64 neg q := by
    intro neg
    rw [nearest64, B64.ofMag]
    by_cases g : roundMag q ≤ maxFinite
    · rw [dif_pos g, if_pos g]; rfl
    · rw [dif_neg g, if_neg g]; rfl
  constructor
  · cases neg
    · have hn : lowerText (c :: r) ≠ ['n', 'a', 'n'] := fun h => l2 (List.cons.inj h).1
      show parseFloat (c :: r) = _
      simp only [parseFloat, hsp, if_neg hi, if_neg hn, hq, hm]
    · have hn : lowerText ('-' :: c :: r) ≠ ['n', 'a', 'n'] := fun h => absurd (List.cons.inj h).1 (by decide)
      show parseFloat ('-' :: c :: r) = _
      simp only [parseFloat, splitSign, if_neg hi, if_neg hn, hq, hm]
  · have hn : lowerText ('+' :: c :: r) ≠ ['n', 'a', 'n'] := fun h => absurd (List.cons.inj h).1 (by decide)
    simp only [parseFloat, splitSign, if_neg hi, if_neg hn, hq, hm]

theorem numText_nonneg {q : ℚ} {s : List Char} (h : NumText q s) : 0 ≤ q := by
  cases h with
  | whole => exact mul_nonneg (Nat.cast_nonneg _) (zpow_pos (by norm_num) _).le
  | point => exact mul_nonneg (by positivity) (zpow_pos (by norm_num) _).le

theorem round64_signed {q : ℚ} (h : 0 ≤ q) (neg : Bool) :
    (roundMag q ≤ maxFinite → ∃ a, round64 (B64.signed neg q) = .fin a) ∧
    (¬ roundMag q ≤ maxFinite → ∀ a, round64 (B64.signed neg q) ≠ .fin a) := by
  have e := B64.val_ofMag neg h
  rw [B64.ofMag] at e
  constructor
  · intro g
    rw [dif_pos g] at e
    rw [← e]
    exact ⟨_, rfl⟩
  · intro g a
    rw [dif_neg g] at e
    rw [← e]
    cases neg <;> simp [B64.val]

theorem signed_eq (neg : Bool) (q : ℚ) : B64.signed neg q = if neg then -q else q := rfl

/-- **C145 (reading).** A text of digits with a sign, a point and an exponent, each of which may be left out, is read as the
float64 nearest to the number it names; if there is no such float64 because the number is too large, the result is 0 and an error. -/
theorem C145_reads {q : ℚ} {s : List Char} (h : NumText q s) (hs : SmallExp s) (neg : Bool) :
    (∀ a, round64 (if neg then -q else q) = .fin a →
      ∃ y, FloatFromString (.str ((if neg then ['-'] else []) ++ s)) = (y, false) ∧ y.val = .fin a) ∧
    ((∀ a, round64 (if neg then -q else q) ≠ .fin a) →
      FloatFromString (.str ((if neg then ['-'] else []) ++ s)) = (fl 0, true)) := by
  have h0 := numText_nonneg h
  obtain ⟨k1, k2⟩ := round64_signed h0 neg
  rw [signed_eq] at k1 k2
  have hp := (parseFloat_text h hs neg).1
  constructor
  · intro a ha
    have g : roundMag q ≤ maxFinite := by
      by_contra g
      exact k2 g a ha
    rw [nearest64, if_pos g] at hp
    refine ⟨B64.ofMag neg q, ?_, (B64.val_ofMag neg h0).trans ha⟩
    rw [FloatFromString, hp]
  · intro ha
    have g : ¬ roundMag q ≤ maxFinite := fun g => by
      obtain ⟨a, e⟩ := k1 g
      exact ha a e
    rw [nearest64, if_neg g] at hp
    rw [FloatFromString, hp]

/-! ## Rejecting -/

/-- A character that occurs in no number: no letter, digit, point, sign or underscore. -/
def Foreign (c : Char) : Prop := c.isAlphanum = false ∧ c ∉ ['.', '+', '-', '_']

theorem digitOf_alnum {c : Char} {d : Nat} (h : digitOf c = some d) : c.isAlphanum = true := by
  rw [digitOf] at h
  split at h
  · next g =>
    have : c.isDigit = true := by
      simp only [Char.isDigit, Bool.and_eq_true, decide_eq_true_iff]
      exact ⟨g.1, g.2⟩
    simp [Char.isAlphanum, this]
  · cases h

theorem foreign_digit {c : Char} (h : Foreign c) : digitOf c = none := by
  cases hd : digitOf c with
  | none => rfl
  | some d => have := digitOf_alnum hd; rw [h.1] at this; cases this

theorem readExp_foreign {c : Char} (h : Foreign c) : ∀ (s : List Char) (e : Nat), c ∈ s → readExp s e = none := by
  intro s
  induction s with
  | nil => intro e hc; cases hc
  | cons a s ih =>
    intro e hc
    rw [readExp]
    rcases List.mem_cons.mp hc with rfl | hc
    · rw [foreign_digit h]
    · cases digitOf a with
      | none => rfl
      | some d => exact ih _ hc

theorem splitSign_mem {c : Char} (h : Foreign c) {s : List Char} (hc : c ∈ s) : c ∈ (splitSign s).2 := by
  have h2 := h.2
  simp only [List.mem_cons, not_or] at h2
  rw [splitSign.eq_def]
  split
  · rcases List.mem_cons.mp hc with rfl | hc
    · exact absurd rfl h2.2.1
    · exact hc
  · rcases List.mem_cons.mp hc with rfl | hc
    · exact absurd rfl h2.2.2.1
    · exact hc
  · exact hc

theorem readTail_foreign {c : Char} (h : Foreign c) {s : List Char} (hc : c ∈ s) : readTail s = none := by
  cases s with
  | nil => cases hc
  | cons a s =>
    rw [readTail]
    split
    · next ha =>
      have hc' : c ∈ s := by
        rcases List.mem_cons.mp hc with rfl | hc
        · rcases ha with rfl | rfl <;> exact absurd h.1 (by decide)
        · exact hc
      have := splitSign_mem h hc'
      dsimp only
      split
      · rfl
      · rw [readExp_foreign h _ _ this]; rfl
    · rfl

theorem readMant_foreign {c : Char} (h : Foreign c) : ∀ (s : List Char) (m k : Nat) (dot saw : Bool), c ∈ s →
    c ∈ (readMant s m k dot saw).2.2.2 := by
  intro s
  induction s with
  | nil => intro _ _ _ _ hc; cases hc
  | cons a s ih =>
    intro m k dot saw hc
    rw [readMant]
    have hd : c ≠ '.' := by have h2 := h.2; simp only [List.mem_cons, not_or] at h2; exact h2.1
    split
    · next ha =>
      split
      · exact hc
      · refine ih _ _ _ _ ?_
        rcases List.mem_cons.mp hc with rfl | hc
        · exact absurd ha hd
        · exact hc
    · split
      · next d hd' =>
        refine ih _ _ _ _ ?_
        rcases List.mem_cons.mp hc with rfl | hc
        · rw [foreign_digit h] at hd'; cases hd'
        · exact hc
      · exact hc

/-- A text that becomes letters has no foreign character. -/
theorem lowerText_foreign {c : Char} (h : Foreign c) {s w : List Char} (hc : c ∈ s) (hw : ∀ a ∈ w, a.isAlphanum = true) :
    lowerText s ≠ w := by
  rintro rfl
  have h1 := hw c.toLower (List.mem_map.mpr ⟨c, hc, rfl⟩)
  have h2 : c.toLower = c := by
    rw [Char.toLower]
    have h3 := h.1
    split
    · next g =>
      exfalso
      have : c.isUpper = true := by simpa [Char.isUpper] using g
      simp [Char.isAlphanum, Char.isAlpha, this] at h3
    · rfl
  rw [h2, h.1] at h1
  cases h1

/-- **C145 (rejecting).** Anything that is not a string, the empty string, and every string with a character that is no letter,
digit, point, sign or underscore gives 0 and an error: blanks around a number, thousands separators and percent signs are not
read over. -/
theorem C145_rejects : FloatFromString .other = (fl 0, true) ∧ FloatFromString (.str []) = (fl 0, true) ∧
    ∀ s c, c ∈ s → Foreign c → FloatFromString (.str s) = (fl 0, true) := by
  refine ⟨rfl, rfl, fun s c hc h => ?_⟩
  have hp : parseFloat s = none := by
    have hm := splitSign_mem h hc
    have h1 := lowerText_foreign h hm (w := ['i', 'n', 'f']) (by decide)
    have h2 := lowerText_foreign h hm (w := ['i', 'n', 'f', 'i', 'n', 'i', 't', 'y']) (by decide)
    have h3 := lowerText_foreign h hc (w := ['n', 'a', 'n']) (by decide)
    have h4 : readNumber (splitSign s).2 = none := by
      rw [readNumber]
      dsimp only
      rw [readTail_foreign h (readMant_foreign h _ _ _ _ _ hm)]
      split <;> rfl
    rw [parseFloat]
    dsimp only
    rw [if_neg (by rintro (g | g) <;> contradiction), if_neg h3, h4]
  rw [FloatFromString, hp]

/-! ## Printing -/

theorem halfEven_error (q : ℚ) : |(halfEven q : ℚ) - q| ≤ 1 / 2 := by
  have h1 := Int.floor_le q
  have h2 := Int.lt_floor_add_one q
  simp only [halfEven]
  split_ifs <;> push_cast <;> rw [abs_le] <;> constructor <;> linarith

theorem halfEven_near {q : ℚ} {n : ℤ} (h : |q - n| < 1 / 2) : halfEven q = n := by
  have h1 := abs_le.mp (halfEven_error q)
  have h2 := abs_lt.mp h
  have h3 : (halfEven q : ℚ) < n + 1 := by linarith
  have h4 : (n : ℚ) < halfEven q + 1 := by linarith
  have h5 : halfEven q < n + 1 := by exact_mod_cast h3
  have h6 : n < halfEven q + 1 := by exact_mod_cast h4
  omega

theorem halfEven_up (n : ℤ) : halfEven (n + 1 / 2) = if n % 2 = 0 then n else n + 1 := by
  have hf : ⌊(n : ℚ) + 1 / 2⌋ = n := by rw [Int.floor_eq_iff]; constructor <;> linarith
  have e : (n : ℚ) + 1 / 2 - n = 1 / 2 := by ring
  simp only [halfEven, hf, e, lt_irrefl, if_false]

/-- What is rounded to `n` and is not farther from `n` than another number rounded to `n`. -/
theorem halfEven_stay {p q : ℚ} {n : ℤ} (hp : halfEven p = n) (h : |q - n| ≤ |p - n|) : halfEven q = n := by
  have h1 : |p - n| ≤ 1 / 2 := by rw [← hp, abs_sub_comm]; exact halfEven_error p
  rcases (h.trans h1).lt_or_eq with g | g
  · exact halfEven_near g
  · have h2 : |p - n| = 1 / 2 := le_antisymm h1 (g ▸ h)
    have even : n % 2 = 0 := by
      rcases eq_or_eq_neg_of_abs_eq h2 with e | e
      · have e1 : p = n + 1 / 2 := by linarith
        rw [e1, halfEven_up] at hp
        by_contra h
        rw [if_neg h] at hp; omega
      · have e1 : p = ((n - 1 : ℤ) : ℚ) + 1 / 2 := by push_cast; linarith
        rw [e1, halfEven_up] at hp
        by_contra h
        rw [if_pos (by omega)] at hp; omega
    rcases eq_or_eq_neg_of_abs_eq g with e | e
    · have e1 : q = n + 1 / 2 := by linarith
      rw [e1, halfEven_up, if_pos even]
    · have e1 : q = ((n - 1 : ℤ) : ℚ) + 1 / 2 := by push_cast; linarith
      rw [e1, halfEven_up, if_neg (by omega)]
      omega

/-- The digits of a number that is not negative with `prec` decimals. -/
theorem fixedMag_digits (prec : Nat) {q : ℚ} (hq : 0 ≤ q) : ∃ ds fs : List Nat, ds ≠ [] ∧ (∀ d ∈ ds, d < 10) ∧
    (∀ d ∈ fs, d < 10) ∧ fs.length = prec ∧ fixedMag prec q = textOf ds ++ '.' :: textOf fs ∧
    ((numberOf ds : ℚ) + numberOf fs / 10 ^ fs.length) = halfEven (q * 10 ^ prec) / 10 ^ prec := by
  have h0 : 0 ≤ halfEven (q * 10 ^ prec) := le_halfEven (by push_cast; positivity)
  obtain ⟨n, hn⟩ : ∃ n : Nat, halfEven (q * 10 ^ prec) = n := ⟨_, (Int.toNat_of_nonneg h0).symm⟩
  obtain ⟨ds, a1, a2, a3, a4⟩ := decN_text (n / 10 ^ prec)
  obtain ⟨fs, b1, b2, b3, b4⟩ := padDigits_text prec (n % 10 ^ prec)
  refine ⟨ds, fs, a1, a2, b2, b1, ?_, ?_⟩
  · rw [fixedMag, hn, Int.toNat_natCast, a3, b3]
  · rw [hn, a4, b4, b1, Nat.mod_mod, Int.cast_natCast]
    have : ((n / 10 ^ prec : Nat) : ℚ) * 10 ^ prec + (n % 10 ^ prec : Nat) = n := by
      exact_mod_cast Nat.div_add_mod' n (10 ^ prec)
    rw [← this]
    field_simp

theorem smallExp_plain (ds fs : List Nat) (hd : ∀ d ∈ ds, d < 10) (hf : ∀ d ∈ fs, d < 10) : SmallExp (textOf ds ++ '.' :: (textOf fs ++ [])) := by
  have ne : ∀ c ∈ textOf ds ++ '.' :: (textOf fs ++ []), c ≠ 'e' ∧ c ≠ 'E' := by
    have key : ∀ d < 10, Nat.digitChar d ≠ 'e' ∧ Nat.digitChar d ≠ 'E' := by decide
    intro c hc
    simp only [textOf, List.append_nil, List.mem_append, List.mem_map, List.mem_cons] at hc
    rcases hc with ⟨d, h, rfl⟩ | rfl | ⟨d, h, rfl⟩
    · exact key d (hd d h)
    · decide
    · exact key d (hf d h)
  intro p e t hs ht
  have bad : ∀ {c : Char} {r : List Char}, t = c :: r → c = 'e' ∨ c = 'E' → False := by
    intro c r e1 e2
    obtain ⟨k1, k2⟩ := ne c (by rw [hs, e1]; simp)
    rcases e2 with e2 | e2 <;> contradiction
  cases ht with
  | none => norm_num
  | pos h1 => exact (bad rfl h1).elim
  | plus h1 => exact (bad rfl h1).elim
  | minus h1 => exact (bad rfl h1).elim

theorem parse_fixedMag (prec : Nat) {q : ℚ} (hq : Rep q) (neg : Bool) :
    parseFloat ((if neg then ['-'] else []) ++ fixedMag prec q) = some (B64.ofMag neg (halfEven (q * 10 ^ prec) / 10 ^ prec)) ∧
    roundMag (halfEven (q * 10 ^ prec) / 10 ^ prec) ≤ maxFinite := by
  obtain ⟨ds, fs, h1, h2, h3, h4, h5, h6⟩ := fixedMag_digits prec hq.nonneg
  have ht := NumText.point (e := 0) (t := []) (by simp [h1]) h2 h3 .none
  have hp := (parseFloat_text ht (smallExp_plain ds fs h2 h3) neg).1
  rw [zpow_zero, mul_one, h6, List.append_nil, ← h5, nearest64] at hp
  have g : roundMag (halfEven (q * 10 ^ prec) / 10 ^ prec) ≤ maxFinite := by
    rw [← roundMag_rep rep_max]
    refine roundMag_mono ?_
    rw [div_le_iff₀ (by positivity)]
    obtain ⟨N, hN⟩ : ∃ N : Nat, maxFinite = N := ⟨_, rfl⟩
    have : halfEven (q * 10 ^ prec) ≤ ((N * 10 ^ prec : Nat) : ℤ) := halfEven_le (by
      push_cast
      rw [← hN]
      exact mul_le_mul_of_nonneg_right hq.2 (by positivity))
    rw [hN]
    exact_mod_cast this
  rw [if_pos g] at hp
  exact ⟨hp, g⟩

/-- **C145 (printing).** A finite float64 `a` is printed as a minus sign if its sign is negative, at least one digit, a point and
exactly `prec` digits; the number printed is within half a unit of the last place of `|a|`. -/
theorem C145_printed {x : B64} {a : ℚ} (hx : x.val = .fin a) (prec : Nat) : ∃ (neg : Bool) (ds fs : List Nat), ds ≠ [] ∧
    (∀ d ∈ ds, d < 10) ∧ (∀ d ∈ fs, d < 10) ∧ fs.length = prec ∧ (a < 0 → neg = true) ∧ (0 < a → neg = false) ∧
    fmtFixed prec x = (if neg then ['-'] else []) ++ textOf ds ++ '.' :: textOf fs ∧
    |((numberOf ds : ℚ) + numberOf fs / 10 ^ prec) - (|a|)| ≤ 1 / 2 / 10 ^ prec := by
  cases x with
  | nan => simp [B64.val] at hx
  | inf s => cases s <;> simp [B64.val] at hx
  | fin neg q hq =>
    simp only [B64.val, XF.fin_inj] at hx
    rw [signed_eq] at hx
    have h0 := hq.nonneg
    obtain ⟨ds, fs, h1, h2, h3, h4, h5, h6⟩ := fixedMag_digits prec h0
    refine ⟨neg, ds, fs, h1, h2, h3, h4, ?_, ?_, ?_, ?_⟩
    · intro ha; cases neg <;> simp_all; linarith
    · intro ha; cases neg <;> simp_all; linarith
    · rw [fmtFixed, h5, List.append_assoc]
    · have e : |a| = q := by
        rw [← hx]
        cases neg <;> simp [abs_of_nonneg h0]
      rw [e, ← h4, h6, h4]
      have := halfEven_error (q * 10 ^ prec)
      have hp : (0 : ℚ) < 10 ^ prec := by positivity
      have e2 : (halfEven (q * 10 ^ prec) : ℚ) / 10 ^ prec - q = (halfEven (q * 10 ^ prec) - q * 10 ^ prec) / 10 ^ prec := by
        field_simp
      rw [e2, abs_div, abs_of_pos hp]
      gcongr

/-- The magnitude read back from the text of the magnitude `q`. -/
def readBack (prec : Nat) (q : ℚ) : ℚ := roundMag (halfEven (q * 10 ^ prec) / 10 ^ prec)

theorem read_printed (prec : Nat) (neg : Bool) (q : ℚ) (hq : Rep q) :
    ∃ h, FloatFromString (.str (fmtFixed prec (.fin neg q hq))) = (.fin neg (readBack prec q) h, false) := by
  obtain ⟨h1, h2⟩ := parse_fixedMag prec hq neg
  rw [B64.ofMag, dif_pos h2] at h1
  exact ⟨_, by rw [fmtFixed, FloatFromString, h1]; rfl⟩

theorem printed_near (prec : Nat) {q : ℚ} (hq : Rep q) :
    |(halfEven (q * 10 ^ prec) : ℚ) / 10 ^ prec - q| ≤ 1 / 2 / 10 ^ prec ∧
    |readBack prec q - halfEven (q * 10 ^ prec) / 10 ^ prec| ≤ |q - halfEven (q * 10 ^ prec) / 10 ^ prec| := by
  have h0 := hq.nonneg
  have hp : (0 : ℚ) < 10 ^ prec := by positivity
  constructor
  · have := halfEven_error (q * 10 ^ prec)
    have e2 : (halfEven (q * 10 ^ prec) : ℚ) / 10 ^ prec - q = (halfEven (q * 10 ^ prec) - q * 10 ^ prec) / 10 ^ prec := by
      field_simp
    rw [e2, abs_div, abs_of_pos hp]
    gcongr
  · have h1 : 0 ≤ halfEven (q * 10 ^ prec) := le_halfEven (by push_cast; positivity)
    have h2 : (0 : ℚ) ≤ halfEven (q * 10 ^ prec) := by exact_mod_cast h1
    exact roundMag_nearest (by positivity) hq

/-- **C145 (round trip).** What is printed for a finite float64 is always read without an error, and the number read is within one
unit of the last place printed. -/
theorem C145_read_back {x : B64} {a : ℚ} (hx : x.val = .fin a) (prec : Nat) :
    ∃ y b, FloatFromString (.str (fmtFixed prec x)) = (y, false) ∧ y.val = .fin b ∧ |b - a| ≤ 1 / 10 ^ prec := by
  cases x with
  | nan => simp [B64.val] at hx
  | inf s => cases s <;> simp [B64.val] at hx
  | fin neg q hq =>
    simp only [B64.val, XF.fin_inj] at hx
    rw [signed_eq] at hx
    obtain ⟨h, e⟩ := read_printed prec neg q hq
    obtain ⟨h1, h2⟩ := printed_near prec hq
    refine ⟨_, _, e, rfl, ?_⟩
    have h3 : |readBack prec q - q| ≤ 1 / 10 ^ prec := by
      have := abs_add_le (readBack prec q - halfEven (q * 10 ^ prec) / 10 ^ prec) (halfEven (q * 10 ^ prec) / 10 ^ prec - q)
      rw [sub_add_sub_cancel] at this
      rw [abs_sub_comm q] at h2
      have e : (1 : ℚ) / 10 ^ prec = 1 / 2 / 10 ^ prec + 1 / 2 / 10 ^ prec := by ring
      linarith
    rw [signed_eq, ← hx]
    cases neg
    · simpa using h3
    · rw [abs_sub_comm]; simpa [sub_eq_add_neg, add_comm] using h3

/-- **C145 (fixed point).** Reading what was printed and printing it again gives the same text, for every float64, whether or not the
number read back is the number that was printed. -/
theorem C145_again (x : B64) (prec : Nat) : fmtFixed prec (FloatFromString (.str (fmtFixed prec x))).1 = fmtFixed prec x ∧
    (FloatFromString (.str (fmtFixed prec x))).2 = false := by
  cases x with
  | nan => exact ⟨rfl, rfl⟩
  | inf s => cases s <;> exact ⟨rfl, rfl⟩
  | fin neg q hq =>
    obtain ⟨h, e⟩ := read_printed prec neg q hq
    obtain ⟨h1, h2⟩ := printed_near prec hq
    rw [e]
    refine ⟨?_, rfl⟩
    have hp : (0 : ℚ) < 10 ^ prec := by positivity
    have key : halfEven (readBack prec q * 10 ^ prec) = halfEven (q * 10 ^ prec) := by
      refine halfEven_stay rfl ?_
      have e1 : ∀ z : ℚ, z * 10 ^ prec - halfEven (q * 10 ^ prec) = (z - halfEven (q * 10 ^ prec) / 10 ^ prec) * 10 ^ prec := by
        intro z; field_simp
      rw [e1, e1, abs_mul, abs_mul]
      gcongr
    simp only [fmtFixed, fixedMag, key]

/-- **C145 (same number).** A number that was itself given with at most `prec` decimals, with fewer than sixteen digits, is read back
as the same float64. -/
theorem C145_same {x : B64} {m : ℤ} {prec : Nat} (hm : |m| < 2 ^ 52) (hp : prec ≤ 323)
    (hx : x.val = round64 ((m : ℚ) * 10 ^ (-(prec : ℤ)))) : (FloatFromString (.str (fmtFixed prec x))).1 = x := by
  have err := roundS_decimal_error (n := m) (e := -(prec : ℤ)) hm (by omega)
  have hz : (m : ℚ) * 10 ^ (-(prec : ℤ)) = m / 10 ^ prec := by rw [zpow_neg, zpow_natCast, div_eq_mul_inv]
  have hz2 : (10 : ℚ) ^ (-(prec : ℤ)) / 2 = 1 / 2 / 10 ^ prec := by rw [zpow_neg, zpow_natCast]; ring
  rw [hz2, hz] at err
  rw [hz] at hx
  have hpos : (0 : ℚ) < 10 ^ prec := by positivity
  have one : (1 : ℚ) ≤ 10 ^ prec := one_le_pow₀ (by norm_num)
  have hm' : |(m : ℚ)| < 2 ^ 52 := by exact_mod_cast hm
  have fin : |roundS ((m : ℚ) / 10 ^ prec)| ≤ maxFinite := by
    have a1 : |(m : ℚ) / 10 ^ prec| ≤ 2 ^ 52 := by
      rw [abs_div, abs_of_pos hpos]
      exact (div_le_self (abs_nonneg _) one).trans hm'.le
    have a2 : (1 : ℚ) / 2 / 10 ^ prec ≤ 1 := (div_le_self (by norm_num) one).trans (by norm_num)
    have a3 := abs_sub_abs_le_abs_sub (roundS ((m : ℚ) / 10 ^ prec)) (m / 10 ^ prec)
    have a4 : (2 : ℚ) ^ 52 + 1 ≤ maxFinite := by
      have big : (1 : ℚ) ≤ ((2 ^ 971 : ℕ) : ℚ) := by rw [Nat.cast_pow]; exact one_le_pow₀ (by norm_num)
      rw [maxFinite, Nat.cast_mul]
      generalize ((2 ^ 971 : ℕ) : ℚ) = t at big
      norm_num
      linarith
    linarith
  rw [round64, if_pos fin] at hx
  cases x with
  | nan => simp [B64.val] at hx
  | inf s => cases s <;> simp [B64.val] at hx
  | fin neg q hq =>
    simp only [B64.val, XF.fin_inj] at hx
    have h0 := hq.nonneg
    have hq1 : |roundS ((m : ℚ) / 10 ^ prec)| = q := by
      rw [← hx, signed_eq]
      cases neg <;> simp [abs_of_nonneg h0]
    have hq2 : roundMag (((|m| : ℤ) : ℚ) / 10 ^ prec) = q := by
      rw [← hq1, roundS, Int.cast_abs]
      have sgn : (m : ℚ) / 10 ^ prec < 0 ↔ (m : ℚ) < 0 := by
        rw [div_lt_iff₀ hpos, zero_mul]
      split_ifs with g
      · rw [abs_neg, abs_of_neg (sgn.mp g), abs_of_nonneg (roundMag_nonneg _), neg_div]
      · rw [abs_of_nonneg (roundMag_nonneg _), abs_of_nonneg (not_lt.mp (sgn.not.mp g))]
    have hh : halfEven (q * 10 ^ prec) = |m| := by
      refine halfEven_near ?_
      have b1 := (abs_abs_sub_abs_le (roundS ((m : ℚ) / 10 ^ prec)) (m / 10 ^ prec)).trans_lt err
      rw [hq1, abs_div, abs_of_pos hpos] at b1
      have b2 : q * 10 ^ prec - ((|m| : ℤ) : ℚ) = (q - |(m : ℚ)| / 10 ^ prec) * 10 ^ prec := by
        rw [Int.cast_abs]; field_simp
      rw [b2, abs_mul, abs_of_pos hpos]
      rwa [lt_div_iff₀ hpos] at b1
    obtain ⟨h, e⟩ := read_printed prec neg q hq
    rw [e]
    have : readBack prec q = q := by rw [readBack, hh, hq2]
    simp only [this]

/-- **C145 (order).** Printing and reading back never exchanges two numbers. -/
theorem C145_order {x y : B64} {a a' : ℚ} (hx : x.val = .fin a) (hy : y.val = .fin a') (h : a ≤ a') (prec : Nat) :
    ∃ b b', (FloatFromString (.str (fmtFixed prec x))).1.val = .fin b ∧ (FloatFromString (.str (fmtFixed prec y))).1.val = .fin b' ∧
      b ≤ b' := by
  cases x with
  | nan => simp [B64.val] at hx
  | inf s => cases s <;> simp [B64.val] at hx
  | fin neg q hq =>
  cases y with
  | nan => simp [B64.val] at hy
  | inf s => cases s <;> simp [B64.val] at hy
  | fin neg' q' hq' =>
    simp only [B64.val, XF.fin_inj] at hx hy
    rw [signed_eq] at hx hy
    obtain ⟨h1, e⟩ := read_printed prec neg q hq
    obtain ⟨h2, e'⟩ := read_printed prec neg' q' hq'
    rw [e, e']
    refine ⟨_, _, rfl, rfl, ?_⟩
    have mono : ∀ {u v : ℚ}, u ≤ v → readBack prec u ≤ readBack prec v := by
      intro u v huv
      refine roundMag_mono ?_
      have : halfEven (u * 10 ^ prec) ≤ halfEven (v * 10 ^ prec) := halfEven_mono (by gcongr)
      gcongr
    have p1 := h1.nonneg
    have p2 := h2.nonneg
    have q1 := hq.nonneg
    have q2 := hq'.nonneg
    rw [signed_eq, signed_eq]
    subst hx hy
    cases neg <;> cases neg' <;> simp only [if_true, if_false, Bool.false_eq_true] at h ⊢
    · exact mono h
    · have : q = 0 := by linarith
      have : q' = 0 := by linarith
      subst q q'
      have : readBack prec 0 = 0 := by simp [readBack, halfEven, roundMag_zero]
      rw [this]; simp
    · linarith
    · exact neg_le_neg (mono (by linarith))

/-- **C145 (dust).** A positive number of at most half a unit of the last place is printed as zero and read back as zero: with `%f` the
prices, volumes and changes below `0.0000005` are gone from the text. -/
theorem C145_dust {x : B64} {a : ℚ} (hx : x.val = .fin a) (h0 : 0 < a) {prec : Nat} (h : a ≤ 1 / 2 / 10 ^ prec) :
    fmtFixed prec x = '0' :: '.' :: List.replicate prec '0' ∧ (FloatFromString (.str (fmtFixed prec x))).1.val = .fin 0 := by
  cases x with
  | nan => simp [B64.val] at hx
  | inf s => cases s <;> simp [B64.val] at hx
  | fin neg q hq =>
    simp only [B64.val, XF.fin_inj] at hx
    rw [signed_eq] at hx
    have q1 := hq.nonneg
    cases neg with
    | true => simp only [if_true] at hx; linarith
    | false =>
      simp only [Bool.false_eq_true, if_false] at hx
      subst hx
      have hz : halfEven (q * 10 ^ prec) = 0 := by
        refine le_antisymm ?_ (le_halfEven (by push_cast; positivity))
        have h1 : q * 10 ^ prec ≤ ((0 : ℤ) : ℚ) + 1 / 2 := by
          rw [le_div_iff₀ (by positivity)] at h
          push_cast; linarith
        have := halfEven_mono h1
        rwa [halfEven_up] at this
      obtain ⟨h2, e⟩ := read_printed prec false q hq
      constructor
      · have pad : ∀ k, padDigits k 0 = List.replicate k '0' := by
          intro k
          induction k with
          | zero => rfl
          | succ k ih => rw [padDigits, List.replicate_succ']; simp [ih]
        rw [fmtFixed, fixedMag, hz]
        simp [pad, decN]
      · rw [e]
        have : readBack prec q = 0 := by simp [readBack, hz, roundMag_zero]
        show XF.fin (B64.signed false (readBack prec q)) = _
        rw [this]; rfl

/-- **C145 (refuted).** That the text is read without an error does not mean that the number is finite: `NaN` and `Inf`, in any letters,
are accepted. -/
theorem C145_finite_refuted : ¬ ∀ s, (FloatFromString (.str s)).2 = false → ∃ a, (FloatFromString (.str s)).1.val = .fin a := by
  intro h
  obtain ⟨a, ha⟩ := h "nAn".toList rfl
  have : (FloatFromString (.str "nAn".toList)).1 = .nan := rfl
  rw [this] at ha
  simp [B64.val] at ha

/-! ### Cases -/

/-- A price with two decimals. -/
example : fmtFixed 6 (B64.ofMag false (617 / 5)) = "123.400000".toList := by decide +kernel

example : (fmtFixed 6 (B64.ofMag true (1 / 8)), fmtFixed 6 .nan, fmtFixed 6 (.inf false)) =
    ("-0.125000".toList, "NaN".toList, "+Inf".toList) := by decide +kernel

/-- Halves go to the even digit. -/
example : (fmtFixed 2 (B64.ofMag false (1 / 8)), fmtFixed 2 (B64.ofMag false (3 / 8))) = ("0.12".toList, "0.38".toList) := by
  decide +kernel

/-- Dust. -/
example : fmtFixed 6 (B64.ofMag false (1 / 4194304)) = "0.000000".toList := by decide +kernel

/-- The hypotheses of `C145_same`: 123.4 read from a file. -/
example : (FloatFromString (.str (fmtFixed 6 (B64.ofMag false ((123400000 : ℤ) * 10 ^ (-((6 : Nat) : ℤ))))))).1 =
    B64.ofMag false ((123400000 : ℤ) * 10 ^ (-((6 : Nat) : ℤ))) :=
  C145_same (m := 123400000) (prec := 6) (by norm_num) (by norm_num) (by
    rw [B64.val_ofMag false (by positivity)]; rfl)

/-- The hypotheses of `C145_printed`, `C145_read_back` and `C145_order`. -/
example : (B64.ofMag true (1 / 8)).val = .fin (-1 / 8) ∧ (B64.ofMag false (3 / 8)).val = .fin (3 / 8) := by decide +kernel

/-- The hypotheses of `C145_dust`. -/
example : (B64.ofMag false (1 / 4194304)).val = .fin (1 / 4194304) ∧ (0 : ℚ) < 1 / 4194304 ∧ (1 : ℚ) / 4194304 ≤ 1 / 2 / 10 ^ 6 := by
  refine ⟨by decide +kernel, by norm_num, by norm_num⟩

end Verif.Props
