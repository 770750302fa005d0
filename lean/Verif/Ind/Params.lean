import Verif.Ta.Misc

/-!
# Window functions of `utils/ta` at arbitrary `int` periods
-/

set_option linter.unusedSectionVars false

namespace Verif.Ta
open Verif GoFloat

variable {F : Type} [GoFloat F]

/-- Periods for which `Max`, `Min` and `Stochastic` do not panic on `n` values. -/
def okW (p : Int) (n : Nat) : Prop := 0 < p ∨ (p = 0 ∧ n = 0)

/-- Periods for which `Sma`, `Sum` and `ShiftRight` do not panic on `n` values. -/
def okS (p : Int) (n : Nat) : Prop := 0 ≤ p ∨ n = 0

theorem toNat_cast {p : Int} (h : 0 ≤ p) : (p.toNat : Int) = p := Int.toNat_of_nonneg h

theorem Max_ok {p : Int} {n : Nat} (x : Nat → F) (h : okW p n) :
    Max p (tab n x) = .ok (tab n (maxF p.toNat x)) := by
  rcases h with h | ⟨rfl, rfl⟩
  · have := Max_tab (p := p.toNat) (by omega) n x
    rwa [toNat_cast (by omega)] at this
  · exact Max_nil (by omega)

theorem Min_ok {p : Int} {n : Nat} (x : Nat → F) (h : okW p n) :
    Min p (tab n x) = .ok (tab n (minF p.toNat x)) := by
  rcases h with h | ⟨rfl, rfl⟩
  · have := Min_tab (p := p.toNat) (by omega) n x
    rwa [toNat_cast (by omega)] at this
  · exact Min_nil (by omega)

theorem tab_ne_nil {α : Type} {n : Nat} (x : Nat → α) (h : n ≠ 0) : tab n x ≠ [] := by
  intro e; apply h; simpa using congrArg List.length e

theorem Max_err {p : Int} {n : Nat} (x : Nat → F) (h : ¬ okW p n) : ∃ e, Max p (tab n x) = .error e := by
  simp only [okW, not_or, not_and] at h
  rcases lt_trichotomy p 0 with hp | hp | hp
  · exact ⟨_, Max_neg hp _⟩
  · subst hp; exact ⟨_, Max_zero _ (tab_ne_nil x (h.2 rfl))⟩
  · exact absurd hp h.1

theorem Min_err {p : Int} {n : Nat} (x : Nat → F) (h : ¬ okW p n) : ∃ e, Min p (tab n x) = .error e := by
  simp only [okW, not_or, not_and] at h
  rcases lt_trichotomy p 0 with hp | hp | hp
  · exact ⟨_, Min_neg hp _⟩
  · subst hp; exact ⟨_, Min_zero _ (tab_ne_nil x (h.2 rfl))⟩
  · exact absurd hp h.1

theorem Sma_ok {p : Int} {n : Nat} (x : Nat → F) (h : okS p n) :
    Sma p (tab n x) = .ok (tab n (smaF p.toNat x)) := by
  rcases h with h | rfl
  · have := Sma_tab p.toNat n x
    rwa [toNat_cast h] at this
  · rfl

theorem Sma_err {p : Int} {n : Nat} (x : Nat → F) (h : ¬ okS p n) : ∃ e, Sma p (tab n x) = .error e := by
  simp only [okS, not_or, not_le] at h
  exact ⟨_, Sma_neg h.1 n x (by omega)⟩

theorem Sum_ok {p : Int} {n : Nat} (x : Nat → F) (h : okS p n) :
    Sum p (tab n x) = .ok (tab n fun i => runSum p.toNat x (i + 1)) := by
  rcases h with h | rfl
  · have := Sum_tab p.toNat n x
    rwa [toNat_cast h] at this
  · rfl

theorem Sum_err {p : Int} {n : Nat} (x : Nat → F) (h : ¬ okS p n) : ∃ e, Sum p (tab n x) = .error e := by
  simp only [okS, not_or, not_le] at h
  exact ⟨_, Sum_neg h.1 n x (by omega)⟩

theorem ShiftRightAndFillBy_ok {p : Int} {n : Nat} (fill : F) (x : Nat → F) (h : okS p n) :
    ShiftRightAndFillBy p fill (tab n x) = .ok (tab n (shiftF p.toNat fill x)) := by
  rcases h with h | rfl
  · have := ShiftRightAndFillBy_tab p.toNat n fill x
    rwa [toNat_cast h] at this
  · rfl

theorem ShiftRightAndFillBy_err {p : Int} {n : Nat} (fill : F) (x : Nat → F) (h : ¬ okS p n) :
    ∃ e, ShiftRightAndFillBy p fill (tab n x) = .error e := by
  simp only [okS, not_or, not_le] at h
  exact ⟨_, ShiftRightAndFillBy_neg h.1 fill n x (by omega)⟩

theorem Stochastic_ok {p : Int} {n : Nat} (c h l : Nat → F) (hp : okW p n) :
    Stochastic (tab n c) (tab n h) (tab n l) p
      = .ok (tab n (stochF p.toNat c h l), tab n (smaF 3 (stochF p.toNat c h l))) := by
  rcases hp with hp | ⟨rfl, rfl⟩
  · have := Stochastic_tab p.toNat n (by omega) c h l
    rwa [toNat_cast (by omega)] at this
  · have h1 : Max 0 (tab 0 h) = .ok (tab 0 (maxF 0 h)) := Max_ok h (.inr ⟨rfl, rfl⟩)
    have h2 : Min 0 (tab 0 l) = .ok (tab 0 (minF 0 l)) := Min_ok l (.inr ⟨rfl, rfl⟩)
    simp only [Stochastic, h1, h2, Subtract_tab, Divide_tab, MultiplyBy_tab, ok_bind, Nat.le_refl,
      if_true]
    rfl

theorem Stochastic_err {p : Int} {n : Nat} (c h l : Nat → F) (hp : ¬ okW p n) :
    ∃ e, Stochastic (tab n c) (tab n h) (tab n l) p = .error e := by
  obtain ⟨e, he⟩ := Max_err h hp
  exact ⟨e, by simp [Stochastic, he]⟩

/-- Whatever the first part does, if the rest panics on every value, the whole panics. -/
theorem bind_err {α β : Type} (m : Go α) {f : α → Go β} (h : ∀ a, ∃ e, f a = .error e) :
    ∃ e, (m >>= f) = .error e := by
  cases m with
  | error e => exact ⟨e, rfl⟩
  | ok a => exact h a

/-- A panic in the first part is a panic of the whole. -/
theorem err_bind {α β : Type} {m : Go α} {f : α → Go β} (h : ∃ e, m = .error e) :
    ∃ e, (m >>= f) = .error e := by
  obtain ⟨e, rfl⟩ := h; exact ⟨e, rfl⟩

/-- Where `Wma` does not panic. -/
def okWma (p : Int) (n : Nat) : Prop := (0 < p ∧ p ≤ n + 1) ∨ n = 0 ∧ p ≤ 0

theorem Wma_ok {p : Int} {n : Nat} (x : Nat → F) (h : okWma p n) :
    Wma p (tab n x) = .ok (tab n (wmaF p.toNat x)) := by
  rcases h with ⟨h, h'⟩ | ⟨rfl, h⟩
  · have := Wma_tab p.toNat n (by omega) x
    rwa [toNat_cast (by omega), if_pos (by omega)] at this
  · unfold Wma
    simp only [tab_zero, List.length_nil]
    rw [mk_nat, ok_bind, if_neg (by omega), goFor_empty (by omega), ok_bind]
    simp only [if_neg (show ¬ p - 1 - (p - 1) < p - 1 by omega)]
    rw [goFor_empty (by omega)]
    rfl

theorem Wma_err {p : Int} {n : Nat} (x : Nat → F) (h : ¬ okWma p n) : ∃ e, Wma p (tab n x) = .error e := by
  simp only [okWma, not_or, not_and] at h
  by_cases hp : 0 < p
  · have := Wma_tab p.toNat n (by omega) x
    rw [toNat_cast (by omega), if_neg (by omega)] at this
    exact ⟨_, this⟩
  · have hn : 0 < n := by omega
    refine ⟨.index, ?_⟩
    unfold Wma
    simp only [tab_length, mk_nat, ok_bind]
    rw [if_neg (by omega), if_neg (by omega), goFor_empty (by omega)]
    simp only [ok_bind]
    rw [goFor_error_first (p := .index) (by omega)]
    · rfl
    · have e : p - 1 - (p - 1) = ((0 : Nat) : Int) := by omega
      simp only [e, idx_tab hn, ok_bind]
      rw [setAt_neg (by omega)]
      rfl

/-- Where `LinearReg` and its variants do not panic. -/
def okLR (p : Int) (n : Nat) : Prop := 0 < p ∧ p ≤ n

theorem linRegCore_ok (emit : F → F → F → F → F → F) {p : Int} {n : Nat} (x : Nat → F) (h : okLR p n) :
    linRegCore emit (tab n x) p = .ok (tab n (lrF emit p.toNat x)) := by
  obtain ⟨h, h'⟩ := h
  have := linRegCore_tab emit p.toNat n (by omega) x
  rwa [toNat_cast (by omega), if_pos (by omega)] at this

theorem linRegCore_err (emit : F → F → F → F → F → F) {p : Int} {n : Nat} (x : Nat → F) (h : ¬ okLR p n) :
    ∃ e, linRegCore emit (tab n x) p = .error e := by
  simp only [okLR, not_and] at h
  rcases lt_trichotomy p 0 with hp | rfl | hp
  · exact ⟨.index, by unfold linRegCore; simp [mk, hp]⟩
  · refine ⟨.index, ?_⟩
    unfold linRegCore
    simp only [tab_length, mk_nat, ok_bind]
    rw [if_neg (by omega), goFor_empty (by omega)]
    simp only [ok_bind]
    rw [goFor_error_first (p := .index) (by omega)]
    · rfl
    · rw [if_neg (by omega)]
      simp only [pure_eq_ok, ok_bind]
      rw [setAt_neg (by omega)]
      rfl
  · have := linRegCore_tab emit p.toNat n (by omega) x
    rw [toNat_cast (by omega), if_neg (by omega)] at this
    exact ⟨_, this⟩

/-- Where `Atr` and `Natr` do not panic. -/
def okAtr (p : Int) (n : Nat) : Prop := p < 2 ∨ p < n

/-- `Atr` at one position, for every period. -/
def atrI (p : Int) (h l c : Nat → F) (i : Nat) : F :=
  if p < 1 then fl 0 else if p = 1 then trF h l c i else atrF p.toNat h l c i

theorem Atr_ok {p : Int} {n : Nat} (h l c : Nat → F) (hp : okAtr p n) :
    Atr (tab n h) (tab n l) (tab n c) p = .ok (tab n (atrI p h l c)) := by
  unfold okAtr at hp
  by_cases h1 : p < 1
  · rw [Atr_nonpos h1, tab_length, replicate_eq_tab]
    exact congrArg Except.ok (tab_ext fun i _ => by rw [atrI, if_pos h1])
  · by_cases h2 : p = 1
    · subst h2
      rw [Atr_one]
      exact congrArg Except.ok (tab_ext fun i _ => by simp [atrI])
    · have := Atr_tab p.toNat n (by omega) h l c
      rw [toNat_cast (by omega), if_pos (by omega)] at this
      rw [this]
      exact congrArg Except.ok (tab_ext fun i _ => by rw [atrI, if_neg h1, if_neg h2])

theorem Atr_err {p : Int} {n : Nat} (h l c : Nat → F) (hp : ¬ okAtr p n) :
    ∃ e, Atr (tab n h) (tab n l) (tab n c) p = .error e := by
  simp only [okAtr, not_or] at hp
  have := Atr_tab p.toNat n (by omega) h l c
  rw [toNat_cast (by omega), if_neg (by omega)] at this
  exact ⟨_, this⟩

/-- `Natr` at one position, for every period. -/
def natrI (p : Int) (h l c : Nat → F) (i : Nat) : F :=
  if p < 1 then fl 0 else if p = 1 then trF h l c i else natrF p.toNat h l c i

theorem Natr_ok {p : Int} {n : Nat} (h l c : Nat → F) (hp : okAtr p n) :
    Natr (tab n h) (tab n l) (tab n c) p = .ok (tab n (natrI p h l c)) := by
  unfold okAtr at hp
  by_cases h1 : p < 1
  · unfold Natr
    simp only [tab_length, mk_nat, ok_bind]
    rw [if_pos h1, replicate_eq_tab]
    exact congrArg Except.ok (tab_ext fun i _ => by rw [natrI, if_pos h1])
  · by_cases h2 : p = 1
    · subst h2
      unfold Natr
      simp only [tab_length, mk_nat, ok_bind]
      rw [if_neg h1, if_pos (by omega), TRange_tab]
      exact congrArg Except.ok (tab_ext fun i _ => by simp [natrI])
    · have := Natr_tab p.toNat n (by omega) h l c
      rw [toNat_cast (by omega), if_pos (by omega)] at this
      rw [this]
      exact congrArg Except.ok (tab_ext fun i _ => by rw [natrI, if_neg h1, if_neg h2])

theorem Natr_err {p : Int} {n : Nat} (h l c : Nat → F) (hp : ¬ okAtr p n) :
    ∃ e, Natr (tab n h) (tab n l) (tab n c) p = .error e := by
  simp only [okAtr, not_or] at hp
  have := Natr_tab p.toNat n (by omega) h l c
  rw [toNat_cast (by omega), if_neg (by omega)] at this
  exact ⟨_, this⟩

theorem PivotHigh_ok {p : Int} (n : Nat) (x : Nat → F) (h : 0 ≤ p) :
    PivotHigh (tab n x) p p = .ok (tab n (pivotHighF p.toNat p.toNat x)) := by
  have := PivotHigh_tab n p.toNat p.toNat x
  rwa [toNat_cast h] at this

theorem PivotLow_ok {p : Int} (n : Nat) (x : Nat → F) (h : 0 ≤ p) :
    PivotLow (tab n x) p p = .ok (tab n (pivotLowF p.toNat p.toNat x)) := by
  have := PivotLow_tab n p.toNat p.toNat x
  rwa [toNat_cast h] at this

theorem PivotHigh_err {p : Int} (n : Nat) (x : Nat → F) (h : p < 0) :
    ∃ e, PivotHigh (tab n x) p p = .error e := by
  refine ⟨.index, ?_⟩
  simp only [PivotHigh, tab_length, mk_nat, ok_bind]
  rw [goFor_error_first (p := .index) (by omega)]
  rw [slice, if_neg (by omega)]
  rfl

/-- Where `CCI` does not panic. -/
def okCci (p sp : Int) (n : Nat) : Prop := 0 < p ∧ okS sp n

theorem CCI_ok {p sp : Int} {n : Nat} (x : Nat → F) (h : okCci p sp n) :
    CCI (tab n x) p sp = .ok (tab n (cciF p.toNat sp.toNat x)) := by
  obtain ⟨hp, hs⟩ := h
  rcases hs with hs | rfl
  · have := CCI_tab p.toNat sp.toNat n (by omega) x
    rwa [toNat_cast (by omega), toNat_cast hs] at this
  · simp only [CCI, Sma_ok x (Or.inr rfl : okS sp 0), ok_bind, tab_length, mk_nat, MeanDeviation]
    rw [goFor_empty (by omega), ok_bind, goFor_empty (by omega)]
    rfl

theorem CCI_err {p sp : Int} {n : Nat} (x : Nat → F) (h : ¬ okCci p sp n) :
    ∃ e, CCI (tab n x) p sp = .error e := by
  by_cases hs : okS sp n
  · have hp : p ≤ 0 := by by_contra hp; exact h ⟨by omega, hs⟩
    refine ⟨.index, ?_⟩
    simp only [CCI, Sma_ok x hs, ok_bind, tab_length, mk_nat, MeanDeviation]
    rw [goFor_error_first (p := .index) (by omega)]
    · rfl
    · rw [goFor_empty (by omega), ok_bind, setAt_neg (by omega)]
  · simp only [CCI, tab_length, mk_nat, ok_bind]
    exact err_bind (Sma_err x hs)

theorem AiCoinCCI_all (p : Int) (n : Nat) (x : Nat → F) (f : F) :
    AiCoinCCI (tab n x) p f = .ok (tab n (aiCciF p.toNat x)) := by
  by_cases hp : 0 ≤ p
  · have := AiCoinCCI_tab p.toNat n x f
    rwa [toNat_cast hp] at this
  · have := AiCoinCCI_tab 0 n x f
    rw [show p.toNat = 0 by omega, ← this]
    simp only [AiCoinCCI, MA, Dev, tab_length, mk_nat, ok_bind, show p ≤ 0 by omega, true_or, if_true,
      Nat.cast_zero, le_refl]

end Verif.Ta
