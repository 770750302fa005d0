import Verif.Props.F64Signs

/-!
# Trailing stops in float64 (C121)

The stops of `UTBot`, `SuperTrend` and `PivotPointSuperTrend` never loosen, in float64 and for all inputs, NaN and
infinities included; and the stop of `UTBot` is never on the wrong side of the close.
-/

namespace Verif.Props
open Verif Verif.Klines Verif.Ta Verif.Ind GoFloat

/-! ## Larger and smaller of two -/

theorem xlt_irrefl (v : XF ℚ) : XF.lt v v = false := by
  cases v <;> simp [XF.lt]

theorem max64_cases (x y : B64) (P : XF ℚ → Prop) (hinf : x.val = .pinf ∨ y.val = .pinf → P .pinf) (hnan : P .nan)
    (hx : XF.lt x.val y.val = false → P x.val) (hy : XF.lt y.val x.val = false → P y.val) :
    P (GoFloat.max x y).val := by
  show P (B64.max x y).val
  rw [B64.max]
  split_ifs with h1 h2 h3 h4 h5
  · exact hinf h1
  · exact hnan
  · exact hy (by rw [h3.1, h3.2]; exact xlt_irrefl _)
  · exact hx (by rw [h3.1, h3.2]; exact xlt_irrefl _)
  · refine hx ?_
    have := ltAsymm_XF (K := ℚ) y.val x.val h5
    exact this
  · exact hy (by simpa using h5)

theorem min64_cases (x y : B64) (P : XF ℚ → Prop) (hinf : x.val = .ninf ∨ y.val = .ninf → P .ninf) (hnan : P .nan)
    (hx : XF.lt y.val x.val = false → P x.val) (hy : XF.lt x.val y.val = false → P y.val) :
    P (GoFloat.min x y).val := by
  show P (B64.min x y).val
  rw [B64.min]
  split_ifs with h1 h2 h3 h4 h5
  · exact hinf h1
  · exact hnan
  · exact hx (by rw [h3.1, h3.2]; exact xlt_irrefl _)
  · exact hy (by rw [h3.1, h3.2]; exact xlt_irrefl _)
  · refine hx ?_
    have := ltAsymm_XF (K := ℚ) x.val y.val h5
    exact this
  · exact hy (by simpa using h5)

theorem pinf_not_lt (v : XF ℚ) : XF.lt .pinf v = false := by cases v <;> rfl
theorem not_lt_ninf (v : XF ℚ) : XF.lt v .ninf = false := by cases v <;> rfl
theorem nan_not_lt (v : XF ℚ) : XF.lt .nan v = false := by cases v <;> rfl
theorem not_lt_nan (v : XF ℚ) : XF.lt v .nan = false := by cases v <;> rfl

/-- `math.Max` is not below its arguments. -/
theorem max64_ge (x y : B64) : (GoFloat.max x y <. x) = false ∧ (GoFloat.max x y <. y) = false :=
  ⟨max64_cases x y (fun v => XF.lt v x.val = false) (fun _ => pinf_not_lt _) (nan_not_lt _) (fun _ => xlt_irrefl _) id,
    max64_cases x y (fun v => XF.lt v y.val = false) (fun _ => pinf_not_lt _) (nan_not_lt _) id (fun _ => xlt_irrefl _)⟩

theorem min64_le (x y : B64) : (x <. GoFloat.min x y) = false ∧ (y <. GoFloat.min x y) = false :=
  ⟨min64_cases x y (fun v => XF.lt x.val v = false) (fun _ => not_lt_ninf _) (not_lt_nan _) (fun _ => xlt_irrefl _) id,
    min64_cases x y (fun v => XF.lt y.val v = false) (fun _ => not_lt_ninf _) (not_lt_nan _) id (fun _ => xlt_irrefl _)⟩

/-- What is not below two numbers is not below the larger. -/
theorem max64_le {c x y : B64} (hx : (c <. x) = false) (hy : (c <. y) = false) : (c <. GoFloat.max x y) = false :=
  max64_cases x y (fun v => XF.lt c.val v = false) (fun h => by
    rcases h with h | h
    · rw [← h]; exact hx
    · rw [← h]; exact hy) (not_lt_nan _) (fun _ => hx) (fun _ => hy)

theorem min64_ge {c x y : B64} (hx : (x <. c) = false) (hy : (y <. c) = false) : (GoFloat.min x y <. c) = false :=
  min64_cases x y (fun v => XF.lt v c.val = false) (fun h => by
    rcases h with h | h
    · rw [← h]; exact hx
    · rw [← h]; exact hy) (nan_not_lt _) (fun _ => hx) (fun _ => hy)

/-! ## Numbers that are not negative -/

/-- Not negative: `NaN` is allowed, `-0` too. -/
def NN (x : B64) : Prop := (x <. fl 0) = false

theorem nn_iff {x : B64} : NN x ↔ XF.lt x.val (.fin 0) = false := by
  show XF.lt x.val (fl 0 : B64).val = false ↔ _
  rw [val_zero64]

theorem nn_nan : NN .nan := nn_iff.mpr rfl
theorem nn_inf : NN (.inf false) := nn_iff.mpr rfl

theorem nn_cases {x : B64} (h : NN x) : x = .nan ∨ x = .inf false ∨ ∃ a, x.val = .fin a ∧ 0 ≤ a := by
  rw [nn_iff] at h
  cases x with
  | nan => exact .inl rfl
  | inf s => cases s with
    | false => exact .inr (.inl rfl)
    | true => cases h
  | fin s q hq =>
    refine .inr (.inr ⟨_, rfl, ?_⟩)
    rw [B64.val, xlt_fin, decide_eq_false_iff_not, not_lt] at h
    exact h

theorem nn_fin {x : B64} {a : ℚ} (h : x.val = .fin a) (ha : 0 ≤ a) : NN x := by
  rw [nn_iff, h, xlt_fin, decide_eq_false_iff_not, not_lt]; exact ha

theorem nn_round {x : B64} {q : ℚ} (h : x.val = round64 q) (hq : 0 ≤ q) : NN x := by
  rw [nn_iff, h, round64]
  split_ifs with h1 h2
  · rw [xlt_fin, decide_eq_false_iff_not, not_lt, roundS, if_neg (not_lt.mpr hq)]; exact roundMag_nonneg _
  · exact absurd h2 (not_lt.mpr hq)
  · rfl

theorem nn_add {x y : B64} (hx : NN x) (hy : NN y) : NN (x +. y) := by
  rcases nn_cases hx with rfl | rfl | ⟨a, ha, h0⟩
  · have : (B64.nan +. y : B64) = .nan := by cases y <;> rfl
    rw [this]; exact nn_nan
  · rcases nn_cases hy with rfl | rfl | ⟨b, hb, h1⟩
    · exact nn_nan
    · exact nn_inf
    · obtain ⟨s, q, hq, rfl, -⟩ := B64.val_fin_iff.mp hb
      exact nn_inf
  · rcases nn_cases hy with rfl | rfl | ⟨b, hb, h1⟩
    · obtain ⟨s, q, hq, rfl, -⟩ := B64.val_fin_iff.mp ha
      exact nn_nan
    · obtain ⟨s, q, hq, rfl, -⟩ := B64.val_fin_iff.mp ha
      exact nn_inf
    · exact nn_round (B64.val_add ha hb) (add_nonneg h0 h1)

theorem signed_nonneg {s : Bool} {q : ℚ} (hq : 0 ≤ q) (h : 0 ≤ B64.signed s q) : q = 0 ∨ s = false := by
  cases s with
  | false => exact .inr rfl
  | true =>
    left
    have : 0 ≤ -q := h
    linarith

theorem nn_inf_mul {y : B64} (hy : NN y) : NN (.inf false *. y) ∧ NN (y *. .inf false) := by
  rcases nn_cases hy with rfl | rfl | ⟨b, hb, h1⟩
  · exact ⟨nn_nan, nn_nan⟩
  · exact ⟨nn_inf, nn_inf⟩
  · obtain ⟨s, q, hq, rfl, rfl⟩ := B64.val_fin_iff.mp hb
    rcases signed_nonneg hq.nonneg h1 with rfl | rfl
    · constructor
      · show NN (if (0 : ℚ) = 0 then .nan else .inf (false ^^ s)); rw [if_pos rfl]; exact nn_nan
      · show NN (if (0 : ℚ) = 0 then .nan else .inf (s ^^ false)); rw [if_pos rfl]; exact nn_nan
    · constructor
      · show NN (if q = 0 then .nan else .inf (false ^^ false)); split <;> [exact nn_nan; exact nn_inf]
      · show NN (if q = 0 then .nan else .inf (false ^^ false)); split <;> [exact nn_nan; exact nn_inf]

theorem nn_mul {x y : B64} (hx : NN x) (hy : NN y) : NN (x *. y) := by
  rcases nn_cases hx with rfl | rfl | ⟨a, ha, h0⟩
  · have : (B64.nan *. y : B64) = .nan := by cases y <;> rfl
    rw [this]; exact nn_nan
  · exact (nn_inf_mul hy).1
  · rcases nn_cases hy with rfl | rfl | ⟨b, hb, h1⟩
    · obtain ⟨s, q, hq, rfl, -⟩ := B64.val_fin_iff.mp ha
      exact nn_nan
    · exact (nn_inf_mul hx).2
    · exact nn_round (B64.val_mul ha hb) (mul_nonneg h0 h1)

theorem fl_form {n : ℤ} (h : 0 ≤ n) : (fl n : B64) = .inf false ∨ ∃ q hq, (fl n : B64) = .fin false q hq := by
  show B64.ofRat false n = _ ∨ ∃ q hq, B64.ofRat false n = _
  rw [B64.ofRat]
  split
  · exact .inr ⟨0, rep_zero, rfl⟩
  · have : decide ((n : ℚ) < 0) = false := by simpa using h
    rw [this, B64.ofMag]
    split
    · next hm => exact .inr ⟨_, rep_roundMag hm, rfl⟩
    · exact .inl rfl

theorem nn_fl {n : ℤ} (h : 0 ≤ n) : NN (fl n) := by
  rcases fl_form h with e | ⟨q, hq, e⟩
  · rw [e]; exact nn_inf
  · rw [e]; exact nn_fin (a := q) rfl hq.nonneg

theorem nn_div {x : B64} (hx : NN x) {n : ℤ} (h : 0 ≤ n) : NN (x /. fl n) := by
  rcases fl_form h with e | ⟨q, hq, e⟩
  · rw [e]
    rcases nn_cases hx with rfl | rfl | ⟨a, ha, h0⟩
    · exact nn_nan
    · exact nn_nan
    · obtain ⟨s, p, hp, rfl, -⟩ := B64.val_fin_iff.mp ha
      refine nn_fin (a := 0) ?_ le_rfl
      show (B64.fin (s ^^ false) 0 rep_zero).val = _
      cases s <;> simp [B64.val, B64.signed]
  · rw [e]
    rcases nn_cases hx with rfl | rfl | ⟨a, ha, h0⟩
    · exact nn_nan
    · exact nn_inf
    · by_cases hq0 : q = 0
      · obtain ⟨s, p, hp, rfl, rfl⟩ := B64.val_fin_iff.mp ha
        show NN (if q = 0 then (if p = 0 then .nan else .inf (s ^^ false)) else _)
        rw [if_pos hq0]
        split
        · exact nn_nan
        · next hp0 =>
          rcases signed_nonneg hp.nonneg h0 with rfl | rfl
          · exact absurd rfl hp0
          · exact nn_inf
      · exact nn_round (B64.val_div ha (y := .fin false q hq) (b := q) rfl hq0) (div_nonneg h0 hq.nonneg)

theorem nn_abs (x : B64) : NN (GoFloat.abs x) := by
  cases x with
  | nan => exact nn_nan
  | inf s => exact nn_inf
  | fin s q hq => exact nn_fin (a := q) (by show (B64.fin false q hq).val = _; rfl) hq.nonneg

theorem nn_sub {x y : B64} (h : (x <. y) = false) : NN (x -. y) := (sub_sign x y).2.trans h

theorem nn_zero : NN (fl 0) := nn_fl le_rfl

/-! ## The range -/

theorem nn_trStep {h l c : B64} (hl : (h <. l) = false) : NN (trStep h l c) := by
  rw [trStep]
  split_ifs
  · exact nn_abs _
  · exact nn_abs _
  · exact nn_abs _
  · exact nn_sub hl

theorem nn_trF {h l c : Nat → B64} (hl : ∀ i, (h i <. l i) = false) (i : Nat) : NN (trF h l c i) := by
  cases i with
  | zero => exact nn_zero
  | succ i => exact nn_trStep (hl _)

theorem nn_rmaS {p : Int} (hp : 1 ≤ p) {x : Nat → B64} (hx : ∀ i, NN (x i)) (i : Nat) :
    NN (rmaS p x i).1 ∧ NN (rmaS p x i).2 := by
  induction i with
  | zero => exact ⟨nn_zero, nn_zero⟩
  | succ k ih =>
    rw [rmaS]
    split
    · exact ⟨nn_add ih.1 (hx _), nn_div (nn_add ih.1 (hx _)) (by omega)⟩
    · exact ⟨nn_add (nn_mul ih.2 (nn_fl (by omega))) (hx _),
        nn_div (nn_add (nn_mul ih.2 (nn_fl (by omega))) (hx _)) (by omega)⟩

theorem fl_not_lt {m n : ℤ} (h : m ≤ n) : ((fl n : B64) <. fl m) = false := by
  show XF.lt (B64.ofRat false n).val (B64.ofRat false m).val = false
  rw [B64.val_ofRat, B64.val_ofRat, round64, round64]
  have h1 : (m : ℚ) ≤ n := by exact_mod_cast h
  have h2 := roundS_mono h1
  have key : ∀ {q : ℚ}, q < 0 → roundS q ≤ 0 := fun {q} hq => by
    rw [roundS, if_pos hq]; linarith [roundMag_nonneg (-q)]
  have key2 : ∀ {q : ℚ}, ¬ q < 0 → 0 ≤ roundS q := fun {q} hq => by
    rw [roundS, if_neg hq]; exact roundMag_nonneg _
  split_ifs with a1 a2 a3 a4 a5 a6 a7 a8
  · rw [xlt_fin, decide_eq_false_iff_not, not_lt]; exact h2
  · exact not_lt_ninf _
  · exfalso
    rw [not_le, abs_of_nonneg (key2 a3)] at a2
    rw [abs_of_nonneg ((key2 a3).trans h2)] at a1
    linarith
  · exfalso
    rw [not_le, abs_of_nonpos (key a4)] at a1
    rw [abs_of_nonpos (key (by linarith))] at a5
    linarith
  · exact not_lt_ninf _
  · exfalso; linarith
  · exact pinf_not_lt _
  · exact pinf_not_lt _
  · exact pinf_not_lt _

theorem nn_wilder {p : Nat} (hp : 1 ≤ p) {s : B64} {x : Nat → B64} (hs : NN s) (hx : ∀ i, NN (x i)) (m : Nat) :
    NN (wilder p s x m) := by
  induction m with
  | zero => exact hs
  | succ m ih =>
    exact nn_div (nn_add (nn_mul ih (nn_sub (fl_not_lt (by exact_mod_cast hp)))) (hx _)) (by omega)

/-- The average range is not negative where no high is below its low. -/
theorem nn_atrI (p : Int) {h l c : Nat → B64} (hl : ∀ i, (h i <. l i) = false) (i : Nat) : NN (atrI p h l c i) := by
  rw [atrI]
  split_ifs with h1 h2
  · exact nn_zero
  · exact nn_trF hl i
  · rw [atrF]
    split_ifs
    · exact nn_zero
    · exact nn_wilder (by omega) (nn_rmaS (by omega) (nn_trF hl) _).2 (nn_trF hl) _

/-! ## Distances -/

theorem sub_le_self64 (c : B64) {l : B64} (hl : NN l) : (c <. (c -. l)) = false := by
  rcases nn_cases hl with rfl | rfl | ⟨b, hb, h1⟩
  · have : (c -. .nan : B64) = .nan := by cases c <;> rfl
    rw [this]; exact not_lt_nan _
  · cases c with
    | nan => exact nan_not_lt _
    | inf s => cases s <;> rfl
    | fin s q hq => exact not_lt_ninf _
  · cases c with
    | nan => exact nan_not_lt _
    | inf s =>
      obtain ⟨t, q, hq, rfl, -⟩ := B64.val_fin_iff.mp hb
      cases s <;> rfl
    | fin s q hq =>
      show XF.lt (B64.fin s q hq).val _ = false
      have hx : (B64.fin s q hq).val = .fin (B64.signed s q) := rfl
      rw [B64.val_sub hx hb, hx, round64]
      have h2 := roundS_mono (show B64.signed s q - b ≤ B64.signed s q by linarith)
      rw [roundS_rep (B64.val_srep hx)] at h2
      split_ifs with a1 a2
      · rw [xlt_fin, decide_eq_false_iff_not, not_lt]; exact h2
      · exact not_lt_ninf _
      · exfalso
        have h3 := (B64.val_srep hx).2
        have h4 : 0 ≤ roundS (B64.signed s q - b) := by rw [roundS, if_neg a2]; exact roundMag_nonneg _
        rw [not_le, abs_of_nonneg h4] at a1
        have := (le_abs_self (B64.signed s q)).trans h3
        linarith

theorem self_le_add64 (c : B64) {l : B64} (hl : NN l) : ((c +. l) <. c) = false := by
  rcases nn_cases hl with rfl | rfl | ⟨b, hb, h1⟩
  · have : (c +. .nan : B64) = .nan := by cases c <;> rfl
    rw [this]; exact nan_not_lt _
  · cases c with
    | nan => exact not_lt_nan _
    | inf s => cases s <;> rfl
    | fin s q hq => exact pinf_not_lt _
  · cases c with
    | nan => exact not_lt_nan _
    | inf s =>
      obtain ⟨t, q, hq, rfl, -⟩ := B64.val_fin_iff.mp hb
      cases s <;> rfl
    | fin s q hq =>
      show XF.lt _ (B64.fin s q hq).val = false
      have hx : (B64.fin s q hq).val = .fin (B64.signed s q) := rfl
      rw [B64.val_add hx hb, hx, round64]
      have h2 := roundS_mono (show B64.signed s q ≤ B64.signed s q + b by linarith)
      rw [roundS_rep (B64.val_srep hx)] at h2
      split_ifs with a1 a2
      · rw [xlt_fin, decide_eq_false_iff_not, not_lt]; exact h2
      · exfalso
        have h3 := (B64.val_srep hx).2
        have h4 : roundS (B64.signed s q + b) ≤ 0 := by rw [roundS, if_pos a2]; linarith [roundMag_nonneg (-(B64.signed s q + b))]
        rw [not_le, abs_of_nonpos h4] at a1
        have := (neg_abs_le (B64.signed s q))
        linarith
      · exact pinf_not_lt _

/-! ## The stops -/

/-- What the stops need of comparisons, of `math.Max` and of `math.Min`. -/
structure CmpLaws (F : Type) [GoFloat F] : Prop where
  asymm : LtAsymm F
  nan : ∀ a b : F, isNaN a = true → (a <. b) = false ∧ (b <. a) = false
  max_ge : ∀ a b : F, (GoFloat.max a b <. a) = false ∧ (GoFloat.max a b <. b) = false
  min_le : ∀ a b : F, (a <. GoFloat.min a b) = false ∧ (b <. GoFloat.min a b) = false
  zero : ((fl 0 : F) ==. fl 0) = true

theorem eq_zero64 : ((fl 0 : B64) ==. fl 0) = true := by
  show XF.eq (fl 0 : B64).val (fl 0 : B64).val = true
  rw [val_zero64]; rfl

theorem cmpLaws64 : CmpLaws B64 := by
  refine ⟨ltAsymm_B64, fun a b h => ?_, max64_ge, min64_le, eq_zero64⟩
  cases a with
  | nan => exact ⟨nan_not_lt _, not_lt_nan _⟩
  | inf s => cases h
  | fin s q hq => cases h

section laws
variable {F : Type}

theorem utbot_holds [GoFloat F] (L : CmpLaws F) {p q : Int} {it : Item F} {d : List (UT.Data F)}
    (hd : (UT p q).data it = .ok d) {i : Nat} {v w : UT.Data F} {a b : Candle F} (hv : d[i]? = some v) (hw : d[i + 1]? = some w)
    (ha : it.candles[i]? = some a) (hb : it.candles[i + 1]? = some b) :
    ((v.value <. a.close) = true → (v.value <. b.close) = true → (w.value <. v.value) = false) ∧
    ((a.close <. v.value) = true → (b.close <. v.value) = true → (v.value <. w.value) = false) := by
  obtain ⟨x, hx⟩ := candles_tab it
  obtain ⟨-, rfl⟩ := yields_inv (UT.makes p q).yields hx hd
  have hlt : i + 1 < it.candles.length := by simpa using (List.getElem?_eq_some_iff.mp hw).1
  rw [tab_getElem?_lt hlt] at hw
  rw [tab_getElem?_lt (by omega)] at hv
  rw [hx, tab_getElem?_lt hlt] at hb
  rw [hx, tab_getElem?_lt (by omega)] at ha
  cases hw; cases hv; cases ha; cases hb
  have e : (UT.out p q x i).value = utF p q x i := by cases i <;> rfl
  rw [e]
  show (_ → _ → (UT.step _ _ _ _ <. _) = false) ∧ (_ → _ → (_ <. UT.step _ _ _ _) = false)
  refine ⟨fun h1 h2 => ?_, fun h1 h2 => ?_⟩
  · rw [UT.step, if_pos]
    · exact (L.max_ge _ _).1
    · rw [Bool.and_eq_true]; exact ⟨h2, h1⟩
  · rw [UT.step, if_neg, if_pos]
    · exact (L.min_le _ _).1
    · rw [Bool.and_eq_true]; exact ⟨h2, h1⟩
    · rw [Bool.and_eq_true]
      rintro ⟨h3, -⟩
      have h4 := L.asymm _ _ h2
      exact absurd (h3.symm.trans h4) (by decide)

theorem nz_of_lt [GoFloat F] (L : CmpLaws F) {x y r : F} (h : (x <. y) = true) : Nz x r = x := by
  rw [Nz, if_neg]
  intro hn
  exact absurd (h.symm.trans (L.nan x y hn).1) (by decide)

theorem nz_of_gt [GoFloat F] (L : CmpLaws F) {x y r : F} (h : (y <. x) = true) : Nz x r = x := by
  rw [Nz, if_neg]
  intro hn
  exact absurd (h.symm.trans (L.nan x y hn).2) (by decide)

theorem ST.step_up [GoFloat F] (L : CmpLaws F) (s : ST.St F) (src band pc c : F) (h : (s.up <. pc) = true) :
    ((ST.step s src band pc c).up <. s.up) = false := by
  have e : (ST.step s src band pc c).up = GoFloat.max (src -. band) s.up := by
    simp only [ST.step, nz_of_lt L h]
    have h' : (pc >. s.up) = true := h
    split_ifs <;> simp_all
  rw [e]
  exact (L.max_ge _ _).2

theorem ST.step_dn [GoFloat F] (L : CmpLaws F) (s : ST.St F) (src band pc c : F) (h : (pc <. s.dn) = true) :
    (s.dn <. (ST.step s src band pc c).dn) = false := by
  have e : (ST.step s src band pc c).dn = GoFloat.min (src +. band) s.dn := by
    simp only [ST.step, nz_of_gt L h]
    split_ifs <;> simp_all
  rw [e]
  exact (L.min_le _ _).2

theorem supertrend_holds [GoFloat F] (L : CmpLaws F) {p m : Int} {chg : Bool} {it : Item F} {d : List (ST.Data F)}
    (hd : (ST p m chg).data it = .ok d) {i : Nat} {v w : ST.Data F} {a : Candle F} (hv : d[i]? = some v)
    (hw : d[i + 1]? = some w) (ha : it.candles[i]? = some a) :
    ((v.up <. a.close) = true → (w.up <. v.up) = false) ∧ ((a.close <. v.down) = true → (v.down <. w.down) = false) := by
  obtain ⟨x, hx⟩ := candles_tab it
  obtain ⟨-, rfl⟩ := yields_inv (ST.makes p m chg).yields hx hd
  have hlt : i + 1 < it.candles.length := by simpa using (List.getElem?_eq_some_iff.mp hw).1
  rw [tab_getElem?_lt hlt] at hw
  rw [tab_getElem?_lt (by omega)] at hv
  rw [hx, tab_getElem?_lt (by omega)] at ha
  cases hw; cases hv; cases ha
  exact ⟨fun h => ST.step_up L _ _ _ _ _ h, fun h => ST.step_dn L _ _ _ _ _ h⟩

theorem ppst_hold [GoFloat F] (L : CmpLaws F) (s0 s1 : PPST.St F) (ph pl band pc c : F) (t t' : Int) :
    (((PPST.emit t s0 s1).up ==. fl 0) = false → ((PPST.emit t' s1 (PPST.step s1 ph pl band pc c)).up ==. fl 0) = false →
      ((PPST.emit t s0 s1).up <. pc) = true →
      ((PPST.emit t' s1 (PPST.step s1 ph pl band pc c)).up <. (PPST.emit t s0 s1).up) = false) ∧
    (((PPST.emit t s0 s1).down ==. fl 0) = false →
      ((PPST.emit t' s1 (PPST.step s1 ph pl band pc c)).down ==. fl 0) = false →
      (pc <. (PPST.emit t s0 s1).down) = true →
      ((PPST.emit t s0 s1).down <. (PPST.emit t' s1 (PPST.step s1 ph pl band pc c)).down) = false) := by
  have hu : (s1.up <. pc) = true → ((PPST.step s1 ph pl band pc c).up <. s1.up) = false := fun h => by
    have h' : (pc >. s1.up) = true := h
    simp only [PPST.step, h', if_true]
    exact (L.max_ge _ _).2
  have hd : (pc <. s1.dn) = true → (s1.dn <. (PPST.step s1 ph pl band pc c).dn) = false := fun h => by
    simp only [PPST.step, h, if_true]
    exact (L.min_le _ _).2
  generalize PPST.step s1 ph pl band pc c = s2 at hu hd
  have z := L.zero
  simp only [PPST.emit]
  constructor
  · intro h1 h2 h3
    by_cases c1 : s1.trend = 1 ∧ s0.trend = 1
    · by_cases c2 : s2.trend = 1 ∧ s1.trend = 1
      · rw [if_pos c1, if_pos c1.1] at h3
        rw [if_pos c1, if_pos c1.1, if_pos c2, if_pos c2.1]
        exact hu h3
      · rw [if_neg c2] at h2
        exact absurd (z.symm.trans h2) (by decide)
    · rw [if_neg c1] at h1
      exact absurd (z.symm.trans h1) (by decide)
  · intro h1 h2 h3
    by_cases c1 : s1.trend = -1 ∧ s0.trend = -1
    · by_cases c2 : s2.trend = -1 ∧ s1.trend = -1
      · have c3 : ¬ s1.trend = 1 := by rw [c1.1]; decide
        have c4 : ¬ s2.trend = 1 := by rw [c2.1]; decide
        rw [if_pos c1, if_neg c3] at h3
        rw [if_pos c1, if_neg c3, if_pos c2, if_neg c4]
        exact hd h3
      · rw [if_neg c2] at h2
        exact absurd (z.symm.trans h2) (by decide)
    · rw [if_neg c1] at h1
      exact absurd (z.symm.trans h1) (by decide)

theorem pivot_holds [GoFloat F] (L : CmpLaws F) {p q : Int} {f : F} {it : Item F} {d : List (ST.Data F)}
    (hd : (PPST p q f).data it = .ok d) {i : Nat} {v w : ST.Data F} {a : Candle F} (hv : d[i]? = some v)
    (hw : d[i + 1]? = some w) (ha : it.candles[i]? = some a) :
    ((v.up ==. fl 0) = false → (w.up ==. fl 0) = false → (v.up <. a.close) = true → (w.up <. v.up) = false) ∧
    ((v.down ==. fl 0) = false → (w.down ==. fl 0) = false → (a.close <. v.down) = true →
      (v.down <. w.down) = false) := by
  obtain ⟨x, hx⟩ := candles_tab it
  obtain ⟨-, rfl⟩ := yields_inv (PPST.makes p q f).yields hx hd
  have hlt : i + 1 < it.candles.length := by simpa using (List.getElem?_eq_some_iff.mp hw).1
  rw [tab_getElem?_lt hlt] at hw
  rw [tab_getElem?_lt (by omega)] at hv
  rw [hx, tab_getElem?_lt (by omega)] at ha
  cases hw; cases hv; cases ha
  have z := L.zero
  cases i with
  | zero => exact ⟨fun h => absurd (z.symm.trans h) (by decide), fun h => absurd (z.symm.trans h) (by decide)⟩
  | succ i =>
    exact ppst_hold L _ _ _ _ _ _ (cl x (i + 1 + 1)) _ _

end laws

/-- **C121 (UTBot).** In float64, for every series and all parameters: while two successive closes are above the stop it
is not lowered, and while they are below it it is not raised. -/
theorem C121_utbot {p q : Int} {it : Item B64} {d : List (UT.Data B64)} (hd : (UT p q).data it = .ok d) {i : Nat}
    {v w : UT.Data B64} {a b : Candle B64} (hv : d[i]? = some v) (hw : d[i + 1]? = some w)
    (ha : it.candles[i]? = some a) (hb : it.candles[i + 1]? = some b) :
    ((v.value <. a.close) = true → (v.value <. b.close) = true → (w.value <. v.value) = false) ∧
    ((a.close <. v.value) = true → (b.close <. v.value) = true → (v.value <. w.value) = false) :=
  utbot_holds cmpLaws64 hd hv hw ha hb

theorem UT.step_side (s pc c : B64) {L : B64} (hn : NN L) :
    ((s <. c) = true → (c <. UT.step s pc c L) = false) ∧ ((s <. c) = false → (UT.step s pc c L <. c) = false) := by
  have hs := sub_le_self64 c hn
  have ht := self_le_add64 c hn
  refine ⟨fun h1 => ?_, fun h1 => ?_⟩
  · have h2 := ltAsymm_B64 _ _ h1
    rw [UT.step]
    split_ifs with c1 c2
    · exact max64_le h2 hs
    · rw [Bool.and_eq_true] at c2
      exact absurd (c2.1.symm.trans h2) (by decide)
    · exact hs
  · rw [UT.step]
    split_ifs with c1 c2 c3
    · rw [Bool.and_eq_true] at c1
      exact absurd (c1.1.symm.trans h1) (by decide)
    · exact min64_ge h1 ht
    · exact absurd (c3.symm.trans h1) (by decide)
    · exact ht

/-- No candle has a high below its low. -/
def HighLow (it : Item B64) : Prop := ∀ c ∈ it.candles, (c.high <. c.low) = false

/-- **C121 (UTBot, side).** With a multiple of at least 0 and no high below its low, after a close above the previous stop
the new stop is not above that close, and after any other close it is not below it. -/
theorem C121_utbot_side {p q : Int} (hp : 0 ≤ p) {it : Item B64} (hhl : HighLow it) {d : List (UT.Data B64)}
    (hd : (UT p q).data it = .ok d) {i : Nat} {v w : UT.Data B64} {b : Candle B64} (hv : d[i]? = some v)
    (hw : d[i + 1]? = some w) (hb : it.candles[i + 1]? = some b) :
    ((v.value <. b.close) = true → (b.close <. w.value) = false) ∧
    ((v.value <. b.close) = false → (w.value <. b.close) = false) := by
  obtain ⟨x, hx⟩ : ∃ x : Nat → Candle B64, it.candles = tab it.candles.length x ∧
      ∀ i, ((x i).high <. (x i).low) = false := by
    obtain ⟨y, hy⟩ := candles_tab it
    refine ⟨fun i => if i < it.candles.length then y i else Candle.zero 0, ?_, fun i => ?_⟩
    · conv_lhs => rw [hy]
      exact tab_ext fun i hi => by simp [hi]
    · dsimp only
      split
      · next h =>
        refine hhl _ ?_
        have : it.candles[i]? = some (y i) := by rw [hy]; exact tab_getElem?_lt h
        exact List.mem_of_getElem? this
      · exact xlt_irrefl _
  obtain ⟨hx, hl⟩ := hx
  obtain ⟨-, rfl⟩ := yields_inv (UT.makes p q).yields hx hd
  have hlt : i + 1 < it.candles.length := by simpa using (List.getElem?_eq_some_iff.mp hw).1
  rw [tab_getElem?_lt hlt] at hw
  rw [tab_getElem?_lt (by omega)] at hv
  rw [hx, tab_getElem?_lt hlt] at hb
  cases hw; cases hv; cases hb
  have e : (UT.out p q x i).value = utF p q x i := by cases i <;> rfl
  rw [e]
  exact UT.step_side _ (cl x i) (cl x (i + 1)) (nn_mul (nn_fl hp) (nn_atrI q hl _))

/-- **C121 (SuperTrend).** In float64, for every series and all parameters: the lower band is not lowered after a close
above it, and the upper band is not raised after a close below it. -/
theorem C121_supertrend {p m : Int} {chg : Bool} {it : Item B64} {d : List (ST.Data B64)}
    (hd : (ST p m chg).data it = .ok d) {i : Nat} {v w : ST.Data B64} {a : Candle B64} (hv : d[i]? = some v)
    (hw : d[i + 1]? = some w) (ha : it.candles[i]? = some a) :
    ((v.up <. a.close) = true → (w.up <. v.up) = false) ∧ ((a.close <. v.down) = true → (v.down <. w.down) = false) :=
  supertrend_holds cmpLaws64 hd hv hw ha

/-- **C121 (PivotPointSuperTrend).** In float64: while the line is shown on the same side at two successive candles, a
lower line is not lowered after a close above it and an upper line is not raised after a close below it. -/
theorem C121_pivot {p q : Int} {f : B64} {it : Item B64} {d : List (ST.Data B64)}
    (hd : (PPST p q f).data it = .ok d) {i : Nat} {v w : ST.Data B64} {a : Candle B64} (hv : d[i]? = some v)
    (hw : d[i + 1]? = some w) (ha : it.candles[i]? = some a) :
    ((v.up ==. fl 0) = false → (w.up ==. fl 0) = false → (v.up <. a.close) = true → (w.up <. v.up) = false) ∧
    ((v.down ==. fl 0) = false → (w.down ==. fl 0) = false → (a.close <. v.down) = true →
      (v.down <. w.down) = false) :=
  pivot_holds cmpLaws64 hd hv hw ha

/-- Decimal prices that rise, stay, and fall below the stop. -/
def climb64 : Item B64 :=
  item64 ([1.1, 1.3, 1.7, 1.6, 2.2, 0.9, 0.7, 0.8].map fun c => ⟨c, c + 1 / 16, c - 1 / 16, c, 1⟩)

/-- The premises of `C121_utbot`, `C121_supertrend`, `C121_pivot`, for each candle and the next. -/
def premises (it : Item B64) (d : List (B64 × B64)) : List (Bool × Bool) :=
  (d.zip (it.candles.map (·.close))).map fun (v, c) => (v.1 <. c, c <. v.2)

/-- Both premises occur for `UTBot`: closes above the stop at candles 2 to 4, below it at candles 5 to 7. -/
example : ((UT 1 2).data climb64).map (fun d => premises climb64 (d.map fun r => (r.value, r.value))) =
    .ok [(true, false), (false, false), (true, false), (true, false), (true, false), (false, true), (false, true),
      (false, true)] := by decide +kernel
example : HighLow climb64 := by unfold HighLow; decide +kernel
example : ((ST 2 1 true).data climb64).map (fun d => premises climb64 (d.map fun r => (r.up, r.down))) =
    .ok [(true, false), (false, false), (true, true), (true, true), (true, false), (false, true), (true, true),
      (true, true)] := by decide +kernel
/-- `PivotPointSuperTrend` shows its lower line at candles 3 and 4 and its upper line at candles 6 and 7. -/
example : ((PPST 1 2 (fl 1)).data climb64).map
    (fun d => (d.zip (premises climb64 (d.map fun r => (r.up, r.down)))).map fun (r, q) =>
      ((!(r.up ==. fl 0)) && q.1, (!(r.down ==. fl 0)) && q.2)) =
    .ok [(false, false), (false, false), (false, false), (true, false), (true, false), (false, false), (false, true),
      (false, true)] := by decide +kernel

end Verif.Props
