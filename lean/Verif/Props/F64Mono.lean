import Verif.Props.F64Lines

/-!
# Averages follow their data in float64 arithmetic (C114)

`(y <. x) = false` says that `y` is not below `x` in Go's own comparison: `x ≤ y`, or one of the two is NaN.
-/

namespace Verif.Props
open Verif Verif.Klines Verif.Ta Verif.Ind GoFloat

/-! ## Rounded operations keep the order -/

/-- `b` is not below `a`. -/
def NotBelow (a b : XF ℚ) : Prop := XF.lt b a = false

theorem notBelow_nan_left {b : XF ℚ} : NotBelow .nan b := by cases b <;> rfl
theorem notBelow_nan_right {a : XF ℚ} : NotBelow a .nan := by cases a <;> rfl
theorem notBelow_ninf {b : XF ℚ} : NotBelow .ninf b := by cases b <;> rfl
theorem notBelow_pinf {a : XF ℚ} : NotBelow a .pinf := by cases a <;> rfl
theorem notBelow_fin {a b : ℚ} : NotBelow (.fin a) (.fin b) ↔ a ≤ b := by
  simp [NotBelow, XF.lt]
theorem notBelow_refl (a : XF ℚ) : NotBelow a a := by cases a <;> simp [NotBelow, XF.lt]

theorem notBelow_round64 {a b : ℚ} (h : a ≤ b) : NotBelow (round64 a) (round64 b) := by
  have hm := roundS_mono h
  have neg : ∀ {q : ℚ}, q < 0 → roundS q ≤ 0 := fun h => by
    rw [roundS, if_pos h]; exact neg_nonpos.mpr (roundMag_nonneg _)
  have pos : ∀ {q : ℚ}, ¬ q < 0 → 0 ≤ roundS q := fun h => by
    rw [roundS, if_neg h]; exact roundMag_nonneg _
  by_cases ha : |roundS a| ≤ maxFinite
  · by_cases hb : |roundS b| ≤ maxFinite
    · rw [round64, round64, if_pos ha, if_pos hb]
      exact notBelow_fin.mpr hm
    · by_cases b0 : b < 0
      · exact absurd (abs_le.mpr ⟨(abs_le.mp ha).1.trans hm, (neg b0).trans ((abs_nonneg _).trans ha)⟩) hb
      · rw [round64, round64, if_neg hb, if_neg b0]
        exact notBelow_pinf
  · by_cases a0 : a < 0
    · rw [round64, if_neg ha, if_pos a0]
      exact notBelow_ninf
    · by_cases hb : |roundS b| ≤ maxFinite
      · refine absurd (abs_le.mpr ⟨?_, hm.trans (abs_le.mp hb).2⟩) ha
        exact (neg_nonpos.mpr ((abs_nonneg _).trans hb)).trans (pos a0)
      · rw [round64, round64, if_neg hb, if_neg (not_lt.mpr ((not_lt.mp a0).trans h))]
        exact notBelow_pinf

section
variable {x x' y y' : B64}

theorem notBelow_add (hx : NotBelow x.val x'.val) (hy : NotBelow y.val y'.val) : NotBelow (x +. y).val (x' +. y').val := by
  show NotBelow (B64.add x y).val (B64.add x' y').val
  cases x with
  | nan => exact notBelow_nan_left
  | inf s =>
    cases y with
    | nan => exact notBelow_nan_left
    | inf t =>
      cases s <;> cases t <;> first | exact notBelow_nan_left | exact notBelow_ninf | skip
      cases x' with
      | nan => exact notBelow_nan_right
      | inf s' =>
        cases y' with
        | nan => exact notBelow_nan_right
        | inf t' => cases s' <;> cases t' <;> first | exact notBelow_nan_right | exact notBelow_pinf | cases hx
        | fin => cases hy
      | fin => cases hx
    | fin t q h =>
      cases s
      · cases x' with
        | nan => exact notBelow_nan_right
        | inf s' =>
          cases s'
          · cases y' with
            | nan => exact notBelow_nan_right
            | inf t' => cases t' <;> first | exact notBelow_nan_right | exact notBelow_pinf
            | fin => exact notBelow_pinf
          · cases hx
        | fin => cases hx
      · exact notBelow_ninf
  | fin s p hp =>
    cases y with
    | nan => exact notBelow_nan_left
    | inf t =>
      cases t
      · cases y' with
        | nan => cases x' <;> exact notBelow_nan_right
        | inf t' =>
          cases t'
          · cases x' with
            | nan => exact notBelow_nan_right
            | inf s' => cases s' <;> first | exact notBelow_nan_right | exact notBelow_pinf
            | fin => exact notBelow_pinf
          · cases hy
        | fin => cases hy
      · exact notBelow_ninf
    | fin t q hq =>
      cases x' with
      | nan => exact notBelow_nan_right
      | inf s' =>
        cases s'
        · cases y' with
          | nan => exact notBelow_nan_right
          | inf t' => cases t' <;> first | exact notBelow_nan_right | exact notBelow_pinf
          | fin => exact notBelow_pinf
        · cases hx
      | fin s' p' hp' =>
        cases y' with
        | nan => exact notBelow_nan_right
        | inf t' =>
          cases t'
          · exact notBelow_pinf
          · cases hy
        | fin t' q' hq' =>
          rw [B64.add, B64.add, B64.val_ofRat, B64.val_ofRat]
          exact notBelow_round64 (add_le_add (notBelow_fin.mp hx) (notBelow_fin.mp hy))

theorem val_mul_inf {c : B64} {k : ℚ} (hc : c.val = .fin k) (h0 : 0 ≤ k) (s : Bool) :
    (c *. .inf s).val = if k = 0 then .nan else (B64.inf s).val := by
  obtain ⟨t, q, hq, rfl, rfl⟩ := B64.val_fin_iff.mp hc
  show (if q = 0 then B64.nan else .inf (t ^^ s)).val = _
  have := hq.nonneg
  by_cases h : q = 0
  · subst h; rw [if_pos rfl, if_pos (by cases t <;> simp [B64.signed])]; rfl
  · have hpos : 0 < q := lt_of_le_of_ne this (Ne.symm h)
    cases t
    · rw [if_neg h, if_neg (by simpa [B64.signed] using h)]; simp
    · simp only [B64.signed, if_true] at h0; linarith

theorem notBelow_mul {c : B64} {k : ℚ} (hc : c.val = .fin k) (h0 : 0 ≤ k) (hx : NotBelow x.val x'.val) :
    NotBelow (c *. x).val (c *. x').val := by
  have nan : ∀ z : B64, (z *. .nan).val = .nan := fun z => by cases z <;> rfl
  cases x with
  | nan => rw [nan]; exact notBelow_nan_left
  | inf s =>
    rw [val_mul_inf hc h0]
    split
    · exact notBelow_nan_left
    · next hk =>
      cases s
      · cases x' with
        | nan => rw [nan]; exact notBelow_nan_right
        | inf s' =>
          rw [val_mul_inf hc h0, if_neg hk]
          cases s'
          · exact notBelow_pinf
          · cases hx
        | fin => cases hx
      · exact notBelow_ninf
  | fin s p hp =>
    cases x' with
    | nan => rw [nan]; exact notBelow_nan_right
    | inf s' =>
      rw [val_mul_inf hc h0]
      split
      · exact notBelow_nan_right
      · cases s'
        · exact notBelow_pinf
        · cases hx
    | fin s' p' hp' =>
      rw [B64.val_mul hc rfl, B64.val_mul hc rfl]
      exact notBelow_round64 (mul_le_mul_of_nonneg_left (notBelow_fin.mp hx) h0)

theorem notBelow_mul_right {c : B64} {k : ℚ} (hc : c.val = .fin k) (h0 : 0 ≤ k) (hx : NotBelow x.val x'.val) :
    NotBelow (x *. c).val (x' *. c).val := by
  have comm : ∀ z : B64, z *. c = c *. z := fun z => by
    show B64.mul z c = B64.mul c z
    cases z <;> cases c <;> simp [B64.mul, Bool.xor_comm, mul_comm]
  rw [comm, comm]
  exact notBelow_mul hc h0 hx

theorem val_inf_div {c : B64} {k : ℚ} (hc : c.val = .fin k) (h0 : 0 < k) (s : Bool) :
    (.inf s /. c : B64).val = (B64.inf s).val := by
  obtain ⟨t, q, hq, rfl, rfl⟩ := B64.val_fin_iff.mp hc
  show (B64.inf (s ^^ t)).val = _
  have := hq.nonneg
  cases t
  · simp
  · simp only [B64.signed, if_true] at h0; linarith

theorem notBelow_div {c : B64} {k : ℚ} (hc : c.val = .fin k) (h0 : 0 < k) (hx : NotBelow x.val x'.val) :
    NotBelow (x /. c).val (x' /. c).val := by
  cases x with
  | nan => exact notBelow_nan_left
  | inf s =>
    rw [val_inf_div hc h0]
    cases s
    · cases x' with
      | nan => exact notBelow_nan_right
      | inf s' =>
        rw [val_inf_div hc h0]
        exact hx
      | fin => cases hx
    · exact notBelow_ninf
  | fin s p hp =>
    cases x' with
    | nan => exact notBelow_nan_right
    | inf s' =>
      rw [val_inf_div hc h0]
      cases s'
      · exact notBelow_pinf
      · cases hx
    | fin s' p' hp' =>
      rw [B64.val_div rfl hc h0.ne', B64.val_div rfl hc h0.ne']
      exact notBelow_round64 (div_le_div_of_nonneg_right (notBelow_fin.mp hx) h0.le)

end

/-! ## Averages -/

theorem emaF_mono {p : Nat} (hp : 1 ≤ p) (hp' : p < 2 ^ 53) {x y : Nat → B64} (n : Nat)
    (h : ∀ j ≤ n, NotBelow (x j).val (y j).val) : NotBelow (emaF p x n).val (emaF p y n).val := by
  induction n with
  | zero => exact h 0 le_rfl
  | succ n ih =>
    refine notBelow_div (B64.val_fl ((p : Int) + 1) (by rw [abs_of_nonneg (by omega)]; omega)) (by positivity) ?_
    exact notBelow_add (notBelow_mul (B64.val_fl 2 (by norm_num)) (by norm_num) (h _ le_rfl))
      (notBelow_mul (B64.val_fl ((p : Int) - 1) (by rw [abs_of_nonneg (by omega)]; omega))
        (by exact_mod_cast (by omega : (0 : ℤ) ≤ (p : ℤ) - 1)) (ih fun j hj => h j (by omega)))

theorem rmaS_mono {p : Nat} (hp : 1 ≤ p) (hp' : p ≤ 2 ^ 53) {x y : Nat → B64} (n : Nat)
    (h : ∀ j ≤ n, NotBelow (x j).val (y j).val) :
    NotBelow (rmaS p x n).1.val (rmaS p y n).1.val ∧ NotBelow (rmaS p x n).2.val (rmaS p y n).2.val := by
  induction n with
  | zero => exact ⟨notBelow_refl _, notBelow_refl _⟩
  | succ n ih =>
    obtain ⟨i1, i2⟩ := ih fun j hj => h j (by omega)
    rw [rmaS, rmaS]
    split
    · have hs := notBelow_add i1 (h (n + 1) le_rfl)
      exact ⟨hs, notBelow_div (B64.val_fl _ (by rw [abs_of_nonneg (by omega)]; omega)) (by positivity) hs⟩
    · have hs := notBelow_add (notBelow_mul_right (B64.val_fl ((p : Int) - 1) (by rw [abs_of_nonneg (by omega)]; omega))
        (by exact_mod_cast (by omega : (0 : ℤ) ≤ (p : ℤ) - 1)) i2) (h (n + 1) le_rfl)
      exact ⟨hs, notBelow_div (B64.val_fl _ (by rw [abs_of_nonneg (by omega)]; omega))
        (by exact_mod_cast (by omega : (0 : ℤ) < (p : ℤ))) hs⟩

theorem accum_mono {x y : Nat → B64} (s n : Nat) (h : ∀ j < s + n, NotBelow (x j).val (y j).val) :
    NotBelow (accum x s n).val (accum y s n).val := by
  induction n with
  | zero => exact notBelow_refl _
  | succ n ih => exact notBelow_add (ih fun j hj => h j (by omega)) (h _ (by omega))

theorem maF_mono {p : Nat} (hp' : p ≤ 2 ^ 53) {x y : Nat → B64} (n : Nat)
    (h : ∀ j ≤ n, NotBelow (x j).val (y j).val) : NotBelow (maF p x n).val (maF p y n).val := by
  rw [maF, maF]
  split
  · exact notBelow_refl _
  · next hk =>
    refine notBelow_div (B64.val_fl _ (by rw [abs_of_nonneg (by omega)]; omega))
      (by exact_mod_cast (by omega : (0 : ℤ) < (p : ℤ))) ?_
    exact accum_mono _ _ fun j hj => h j (by omega)

/-- As many values, and none of `ys` below the value of `xs` in its place. -/
def NoneBelow (xs ys : List B64) : Prop := List.Forall₂ (fun u v => (v <. u) = false) xs ys

theorem noneBelow_iff {n : Nat} {x y : Nat → B64} :
    NoneBelow (tab n x) (tab n y) ↔ ∀ j < n, NotBelow (x j).val (y j).val := by
  rw [NoneBelow, List.forall₂_iff_get]
  constructor
  · intro h j hj
    have := h.2 j (by simpa using hj) (by simpa using hj)
    rw [List.get_eq_getElem, List.get_eq_getElem, tab_getElem, tab_getElem] at this
    exact this
  · intro h
    refine ⟨by simp, fun j hj _ => ?_⟩
    rw [List.get_eq_getElem, List.get_eq_getElem, tab_getElem, tab_getElem]
    exact h j (by simpa using hj)

theorem NoneBelow.tabs {xs ys : List B64} (h : NoneBelow xs ys) :
    ∃ n x y, xs = tab n x ∧ ys = tab n y ∧ ∀ j < n, NotBelow (x j).val (y j).val := by
  have hl : xs.length = ys.length := h.length_eq
  have hx : xs = tab xs.length fun i => (xs[i]?).getD (fl 0) := eq_tab_of_forall rfl fun i hi => by simp [hi]
  have hy : ys = tab xs.length fun i => (ys[i]?).getD (fl 0) := eq_tab_of_forall hl.symm fun i hi => by simp [hl ▸ hi]
  exact ⟨_, _, _, hx, hy, noneBelow_iff.mp (by rw [← hx, ← hy]; exact h)⟩

/-- **C114 (Ema).** With float64 rounding, raising any of the prices lowers none of the exponential averages, for every
period from 1 below `2^53`. NaN and infinities may occur; a NaN is neither below nor above a number. -/
theorem C114_ema {p : Nat} (hp : 1 ≤ p) (hp' : p < 2 ^ 53) {xs ys : List B64} (h : NoneBelow xs ys) :
    ∃ r s, Ema p xs = .ok r ∧ Ema p ys = .ok s ∧ NoneBelow r s := by
  obtain ⟨n, x, y, rfl, rfl, hxy⟩ := h.tabs
  exact ⟨_, _, Ema_tab _ _ _, Ema_tab _ _ _,
    noneBelow_iff.mpr fun i hi => emaF_mono hp hp' i fun j hj => hxy j (by omega)⟩

/-- **C114 (Rma).** The same for Wilder's average, for every period from 1 to `2^53`. -/
theorem C114_rma {p : Nat} (hp : 1 ≤ p) (hp' : p ≤ 2 ^ 53) {xs ys : List B64} (h : NoneBelow xs ys) :
    ∃ r s, Rma p xs = .ok r ∧ Rma p ys = .ok s ∧ NoneBelow r s := by
  obtain ⟨n, x, y, rfl, rfl, hxy⟩ := h.tabs
  exact ⟨_, _, Rma_tab _ _ _, Rma_tab _ _ _,
    noneBelow_iff.mpr fun i hi => (rmaS_mono hp hp' i fun j hj => hxy j (by omega)).2⟩

/-- **C114 (MA).** The same for `MA`, which adds up every window anew, for every period up to `2^53`. -/
theorem C114_ma {p : Nat} (hp : p ≤ 2 ^ 53) {xs ys : List B64} (h : NoneBelow xs ys) :
    ∃ r s, MA xs p = .ok r ∧ MA ys p = .ok s ∧ NoneBelow r s := by
  obtain ⟨n, x, y, rfl, rfl, hxy⟩ := h.tabs
  exact ⟨_, _, MA_tab _ _ _, MA_tab _ _ _,
    noneBelow_iff.mpr fun i hi => maF_mono hp i fun j hj => hxy j (by omega)⟩

/-- Prices, and higher prices. -/
def raised64 : List B64 × List B64 := ([lit 95.7, lit 104.99, lit 103.1], [lit 95.71, lit 104.99, lit 110])

theorem raised64_noneBelow : NoneBelow raised64.1 raised64.2 :=
  .cons (by decide +kernel) (.cons (by decide +kernel) (.cons (by decide +kernel) .nil))

example : ∃ r s, Ema 12 raised64.1 = .ok r ∧ Ema 12 raised64.2 = .ok s ∧ NoneBelow r s :=
  C114_ema (p := 12) (by norm_num) (by norm_num) raised64_noneBelow
example : ∃ r s, Rma 2 raised64.1 = .ok r ∧ Rma 2 raised64.2 = .ok s ∧ NoneBelow r s :=
  C114_rma (p := 2) (by norm_num) (by norm_num) raised64_noneBelow
example : ∃ r s, MA raised64.1 2 = .ok r ∧ MA raised64.2 2 = .ok s ∧ NoneBelow r s :=
  C114_ma (p := 2) (by norm_num) raised64_noneBelow
/-- They are really higher. -/
example : (Ema 12 raised64.1).bind (fun r => (Ema 12 raised64.2).map fun s => (r.zip s).map fun q => decide (q.1 <. q.2)) =
    .ok [true, true, true] := by decide +kernel

/-- **C114 (Ema, prices up to `2^970`).** Every exponential average of such prices is a number, and raising prices
lowers none of them. -/
theorem C114_ema_numbers {p : Nat} (hp : 1 ≤ p) (hp' : p < 2 ^ 53) {xs ys : List B64} {as bs : List ℚ}
    (hx : Vals xs as) (hy : Vals ys bs) (hab : List.Forall₂ (· ≤ ·) as bs) (ha : ∀ a ∈ as, |a| ≤ 2 ^ 970)
    (hb : ∀ b ∈ bs, |b| ≤ 2 ^ 970) :
    ∃ r s us vs, Ema p xs = .ok r ∧ Ema p ys = .ok s ∧ Vals r us ∧ Vals s vs ∧ List.Forall₂ (· ≤ ·) us vs := by
  have key : ∀ {xs : List B64} {as : List ℚ}, Vals xs as → (∀ a ∈ as, |a| ≤ 2 ^ 970) →
      ∃ r us, Ema p xs = .ok r ∧ Vals r us ∧ us.length = as.length := by
    intro xs as hv hb
    obtain ⟨r, hr, hl, hr'⟩ := C103_ema_range_partial hp hp' (e := 970) (by norm_num) le_rfl (lo := -1) (hi := 1)
      (by norm_num; omega) (by norm_num; omega) hv (fun v hv => by
        have := abs_le.mp (hb v hv)
        have e : (2 : ℚ) ^ (970 : ℤ) = 2 ^ 970 := zpow_natCast 2 970
        rw [e, Int.cast_neg, Int.cast_one, neg_one_mul, one_mul]
        exact this)
    refine ⟨r, r.map fun v => match v.val with | .fin q => q | _ => 0, hr, ?_, by simpa using hl⟩
    rw [Vals, List.map_map]
    refine List.map_congr_left fun v hv => ?_
    obtain ⟨q, hq, -⟩ := hr' v hv
    simp [hq]
  obtain ⟨r, us, hr, hu, hul⟩ := key hx ha
  obtain ⟨s, vs, hs, hv, hvl⟩ := key hy hb
  refine ⟨r, s, us, vs, hr, hs, hu, hv, ?_⟩
  have conv : ∀ {xs ys : List B64} {as bs : List ℚ}, Vals xs as → Vals ys bs →
      (NoneBelow xs ys ↔ List.Forall₂ (· ≤ ·) as bs) := by
    intro xs ys as bs hx hy
    have e : NoneBelow xs ys ↔ List.Forall₂ NotBelow (xs.map B64.val) (ys.map B64.val) := by
      rw [List.forall₂_map_left_iff, List.forall₂_map_right_iff]; rfl
    rw [e, hx, hy, List.forall₂_map_left_iff, List.forall₂_map_right_iff]
    simp only [notBelow_fin]
  obtain ⟨r', s', hr', hs', hrs⟩ := C114_ema hp hp' ((conv hx hy).mpr hab)
  rw [hr] at hr'; rw [hs] at hs'
  cases hr'; cases hs'
  exact (conv hu hv).mp hrs

/-- **C114 refuted for Sma.** The running sum of `Sma` does not follow its data: the second series has the lower first
price and otherwise the same prices, yet its third average is 1 where that of the first series is 0. -/
theorem C114_sma_refuted : NoneBelow [fl 0, fl 1, fl 1] ([fl (10 ^ 17), fl 1, fl 1] : List B64) ∧
    (∃ r, Sma 2 ([fl 0, fl 1, fl 1] : List B64) = .ok r ∧ Vals r [0, 1 / 2, 1]) ∧
    ∃ r, Sma 2 ([fl (10 ^ 17), fl 1, fl 1] : List B64) = .ok r ∧ Vals r [10 ^ 17, 10 ^ 17 / 2, 0] :=
  ⟨.cons (by decide +kernel) (.cons (by decide +kernel) (.cons (by decide +kernel) .nil)),
    ⟨_, rfl, by decide +kernel⟩, _, rfl, by decide +kernel⟩

/-! ## Indicators -/

/-- As many candles, and no close of `jt` below that of `it`. -/
def ClosesRaised (it jt : Item B64) : Prop :=
  NoneBelow (it.candles.map fun c => c.close) (jt.candles.map fun c => c.close)

theorem ClosesRaised.tabs {it jt : Item B64} (h : ClosesRaised it jt) :
    ∃ n x y, it.candles = tab n x ∧ jt.candles = tab n y ∧ ∀ j < n, NotBelow (Ind.cl x j).val (Ind.cl y j).val := by
  have hl : it.candles.length = jt.candles.length := by simpa using h.length_eq
  obtain ⟨x, hx⟩ := candles_tab it
  obtain ⟨y, hy⟩ := candles_tab jt
  rw [← hl] at hy
  refine ⟨_, x, y, hx, hy, ?_⟩
  rw [ClosesRaised, hx, hy, map_tab, map_tab] at h
  exact noneBelow_iff.mp h

/-- **C114 (EMA).** Two series whose candles differ as they may in everything but have no close of the second below
that of the first: no exponential average of the second is below that of the first. -/
theorem C114_ema_indicator {p : Nat} (hp : 1 ≤ p) (hp' : p < 2 ^ 53) {it jt : Item B64} (h : ClosesRaised it jt)
    {d e : List (Rec B64)} (hd : (EMA p).data it = .ok d) (he : (EMA p).data jt = .ok e) :
    NoneBelow (d.map fun r => r.value) (e.map fun r => r.value) := by
  obtain ⟨n, x, y, hx, hy, hxy⟩ := h.tabs
  have h1 := ((EMA.makes (F := B64) p).yields it n x hx).1 trivial
  have h2 := ((EMA.makes (F := B64) p).yields jt n y hy).1 trivial
  rw [hd] at h1
  rw [he] at h2
  cases h1
  cases h2
  rw [map_tab, map_tab]
  exact noneBelow_iff.mpr fun i hi => emaF_mono hp hp' i fun j hj => hxy j (by omega)

/-- Every close raised by 1. -/
example : ClosesRaised (item64 bars64) (item64 (bars64.map fun b => { b with c := b.c + 1 })) :=
  .cons (by decide +kernel) (.cons (by decide +kernel) (.cons (by decide +kernel) .nil))

end Verif.Props
