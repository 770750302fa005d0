import Verif.Go.Binary64
import Verif.Props.Bars

/-!
# Candles of float64 numbers

Vocabulary for the properties about the arithmetic Go really uses: a float64 series whose prices and volumes stand for
the numbers of a list of bars, and the rules for rounded results between representable bounds.
-/

namespace Verif.Props
open Verif Verif.Klines Verif.Ta Verif.Ind GoFloat

/-- The candles of `it` hold finite float64 numbers, and these are the numbers `bs`. -/
def Holds64 (it : Item B64) (bs : List (Bar ℚ)) : Prop :=
  it.candles.map (fun c => (c.open_.val, c.high.val, c.low.val, c.close.val, c.volume.val)) =
    bs.map fun b => (.fin b.o, .fin b.h, .fin b.l, .fin b.c, .fin b.v)

/-- A float64 candle whose fields are the constants of a bar. -/
def candle64 (b : Bar ℚ) : Candle B64 :=
  { Candle.zero 0 with open_ := lit b.o, high := lit b.h, low := lit b.l, close := lit b.c, volume := lit b.v }

/-- A float64 series with the given constants. -/
def item64 (bs : List (Bar ℚ)) : Item B64 :=
  { exchange := "x", interval := 60, symbol := "s", code := "c", candles := bs.map candle64 }

/-- `q` is a float64 number, stated so that it can be computed. -/
def exact64 (q : ℚ) : Bool := decide (round64 q = .fin q)

theorem holds_item64 {bs : List (Bar ℚ)}
    (h : (bs.all fun b => exact64 b.o && exact64 b.h && exact64 b.l && exact64 b.c && exact64 b.v) = true) :
    Holds64 (item64 bs) bs := by
  simp only [Holds64, item64, List.map_map]
  refine List.map_congr_left fun b hb => ?_
  have := List.all_eq_true.mp h b hb
  simp only [exact64, Bool.and_eq_true, decide_eq_true_eq] at this
  obtain ⟨⟨⟨⟨h1, h2⟩, h3⟩, h4⟩, h5⟩ := this
  simp only [Function.comp_apply, candle64, B64.val_lit, h1, h2, h3, h4, h5]

/-- The columns of a float64 series. -/
structure Cols64 (x : Nat → Candle B64) (b : Nat → Bar ℚ) : Prop where
  op : ∀ i, (Ind.op x i).val = .fin (b i).o
  hi : ∀ i, (Ind.hi x i).val = .fin (b i).h
  lo : ∀ i, (Ind.lo x i).val = .fin (b i).l
  cl : ∀ i, (Ind.cl x i).val = .fin (b i).c
  vo : ∀ i, (Ind.vo x i).val = .fin (b i).v

theorem val_zero64 : (fl 0 : B64).val = .fin 0 := by simpa using B64.val_fl 0 (by norm_num)

theorem Holds64.cols {it : Item B64} {bs : List (Bar ℚ)} (h : Holds64 it bs) :
    ∃ x b, it.candles = tab bs.length x ∧ bs = tab bs.length b ∧ Cols64 x b ∧
      ∀ i, bs.length ≤ i → b i = ⟨0, 0, 0, 0, 0⟩ := by
  have hl : it.candles.length = bs.length := by simpa using congrArg List.length h
  obtain ⟨x, hx⟩ := candles_tab it
  obtain ⟨b, hb, hb0⟩ : ∃ b, bs = tab bs.length b ∧ ∀ i, bs.length ≤ i → b i = ⟨0, 0, 0, 0, 0⟩ := by
    refine ⟨fun i => bs[i]?.getD ⟨0, 0, 0, 0, 0⟩, eq_tab_of_forall rfl fun i hi => by simp [hi], fun i hi => ?_⟩
    simp [List.getElem?_eq_none hi]
  rw [hl] at hx
  have key : ∀ i < bs.length, ((x i).open_.val, (x i).high.val, (x i).low.val, (x i).close.val, (x i).volume.val) =
      (XF.fin (b i).o, XF.fin (b i).h, XF.fin (b i).l, XF.fin (b i).c, XF.fin (b i).v) := by
    intro i hi
    have := congrArg (fun l => l[i]?) h
    simp only [List.getElem?_map] at this
    rw [hx] at this
    rw [tab_getElem?_lt hi] at this
    rw [hb, tab_getElem?_lt hi] at this
    exact Option.some.inj this
  refine ⟨fun i => if i < bs.length then x i else candle64 ⟨0, 0, 0, 0, 0⟩, b, ?_, hb, ⟨?_, ?_, ?_, ?_, ?_⟩, hb0⟩
  · rw [hx]; exact tab_ext fun i hi => by simp [hi]
  all_goals
    intro i
    simp only [Ind.op, Ind.hi, Ind.lo, Ind.cl, Ind.vo]
    split
    · next hi => have := key i hi; simp only [Prod.mk.injEq] at this; simp [this]
    · next hi =>
      rw [hb0 i (by omega)]
      exact (B64.val_lit 0).trans (round64_rep srep_zero)

/-- Records and bars of one index, from the closed form. -/
theorem at64 {I : Indicator B64} {ok} {G} (hy : Yields I ok G) {it : Item B64} {n : Nat}
    {x : Nat → Candle B64} (hx : it.candles = tab n x) {d : List I.D}
    (hd : I.data it = .ok d) {i : Nat} {r : I.D} (hr : d[i]? = some r) : i < n ∧ ok n ∧ r = G x i := by
  obtain ⟨hok, rfl⟩ := yields_inv hy hx hd
  have hi : i < n := by simpa using (List.getElem?_eq_some_iff.mp hr).1
  rw [tab_getElem?_lt hi] at hr
  exact ⟨hi, hok, (Option.some.inj hr).symm⟩

/-! ## Window extremes -/

theorem maxF64 {p : Nat} (hp : 0 < p) {x : Nat → B64} {a : Nat → ℚ} (i : Nat) (h : ∀ j ≤ i, (x j).val = .fin (a j)) :
    ∃ m, (maxF p x i).val = .fin m ∧ IsGreatest {v | ∃ j, i + 1 ≤ j + p ∧ j ≤ i ∧ a j = v} m := by
  obtain ⟨hg, ⟨j, h1, h2, h3⟩, h4⟩ := maxF_spec B64.ordKey hp (x := x) (k := i)
    (fun j hj => by show (x j).val ≠ .nan; rw [h j hj]; intro h; cases h)
  have key : ∀ y : XF ℚ, y ≠ .nan → y.toExt = XF.toExt (.fin (a j)) → y = .fin (a j) := by
    intro y hy he
    cases y <;> simp_all [XF.toExt]
  have e : (maxF p x i).val = .fin (a j) := key _ hg (by rw [← h j h2]; exact h3)
  refine ⟨a j, e, ⟨j, h1, h2, rfl⟩, ?_⟩
  rintro v ⟨k, k1, k2, rfl⟩
  have := h4 k k1 k2
  have this : (x k).val.toExt ≤ (maxF p x i).val.toExt := this
  rw [e, h k k2] at this
  simpa [XF.toExt] using this

theorem minF64 {p : Nat} (hp : 0 < p) {x : Nat → B64} {a : Nat → ℚ} (i : Nat) (h : ∀ j ≤ i, (x j).val = .fin (a j)) :
    ∃ m, (minF p x i).val = .fin m ∧ IsLeast {v | ∃ j, i + 1 ≤ j + p ∧ j ≤ i ∧ a j = v} m := by
  obtain ⟨hg, ⟨j, h1, h2, h3⟩, h4⟩ := minF_spec B64.ordKey hp (x := x) (k := i)
    (fun j hj => by show (x j).val ≠ .nan; rw [h j hj]; intro h; cases h)
  have key : ∀ y : XF ℚ, y ≠ .nan → y.toExt = XF.toExt (.fin (a j)) → y = .fin (a j) := by
    intro y hy he
    cases y <;> simp_all [XF.toExt]
  have e : (minF p x i).val = .fin (a j) := key _ hg (by rw [← h j h2]; exact h3)
  refine ⟨a j, e, ⟨j, h1, h2, rfl⟩, ?_⟩
  rintro v ⟨k, k1, k2, rfl⟩
  have := h4 k k1 k2
  have this : (minF p x i).val.toExt ≤ (x k).val.toExt := this
  rw [e, h k k2] at this
  simpa [XF.toExt] using this

/-! ## Rounded results between representable bounds -/

section rules
variable {x y : B64} {a b lo hi : ℚ}

theorem add64 (hx : x.val = .fin a) (hy : y.val = .fin b) (hlo : SRep lo) (hhi : SRep hi) (h1 : lo ≤ a + b)
    (h2 : a + b ≤ hi) : ∃ r, (x +. y).val = .fin r ∧ lo ≤ r ∧ r ≤ hi := by
  rw [B64.val_add hx hy]; exact round64_between hlo hhi h1 h2

theorem sub64 (hx : x.val = .fin a) (hy : y.val = .fin b) (hlo : SRep lo) (hhi : SRep hi) (h1 : lo ≤ a - b)
    (h2 : a - b ≤ hi) : ∃ r, (x -. y).val = .fin r ∧ lo ≤ r ∧ r ≤ hi := by
  rw [B64.val_sub hx hy]; exact round64_between hlo hhi h1 h2

theorem mul64 (hx : x.val = .fin a) (hy : y.val = .fin b) (hlo : SRep lo) (hhi : SRep hi) (h1 : lo ≤ a * b)
    (h2 : a * b ≤ hi) : ∃ r, (x *. y).val = .fin r ∧ lo ≤ r ∧ r ≤ hi := by
  rw [B64.val_mul hx hy]; exact round64_between hlo hhi h1 h2

theorem div64 (hx : x.val = .fin a) (hy : y.val = .fin b) (hb : b ≠ 0) (hlo : SRep lo) (hhi : SRep hi)
    (h1 : lo ≤ a / b) (h2 : a / b ≤ hi) : ∃ r, (x /. y).val = .fin r ∧ lo ≤ r ∧ r ≤ hi := by
  rw [B64.val_div hx hy hb]; exact round64_between hlo hhi h1 h2

theorem val_subF (hx : x.val = .fin a) (hy : y.val = .fin b) : (subF x y).val = round64 (a - b) := by
  have h1 : (fl (-1) : B64).val = .fin (-1) := by simpa using B64.val_fl (-1) (by norm_num)
  have h2 : (y *. fl (-1)).val = .fin (-b) := by
    rw [B64.val_mul hy h1, mul_neg_one]
    exact round64_rep (B64.val_srep hy).neg
  rw [subF, B64.val_add hx h2, sub_eq_add_neg]

/-- A difference of different float64 numbers is not rounded to 0. -/
theorem round64_sub_pos (ha : SRep a) (hb : SRep b) (h0 : 0 ≤ a) (h : a < b) :
    ∃ r, round64 (b - a) = .fin r ∧ 0 < r ∧ r ≤ b := by
  obtain ⟨r, hr, h1, h2⟩ := round64_between srep_zero hb (sub_nonneg.mpr h.le) (sub_le_self b h0)
  refine ⟨r, hr, ?_, h2⟩
  have ha' : Rep a := by rwa [SRep, abs_of_nonneg h0] at ha
  have hb' : Rep b := by rwa [SRep, abs_of_nonneg (h0.trans h.le)] at hb
  have hp := roundMag_sub_pos ha' hb' h
  rw [round64] at hr
  split_ifs at hr
  simp only [XF.fin_inj] at hr
  rw [← hr, roundS, if_neg (not_lt.mpr (sub_nonneg.mpr h.le))]
  exact hp

/-- Rounding is monotone. -/
theorem round64_mono {u v : ℚ} (hu : round64 a = .fin u) (hv : round64 b = .fin v) (h : a ≤ b) : u ≤ v := by
  rw [round64] at hu hv
  split_ifs at hu hv
  cases hu
  cases hv
  exact roundS_mono h

theorem srep_one : SRep 1 := by simpa using srep_int (n := 1) (by norm_num)
theorem srep_hundred : SRep 100 := by simpa using srep_int (n := 100) (by norm_num)

/-- The quotient of a number by one at least as large lies between 0 and 1; `Divide` replaces `0/0` by 0. -/
theorem safeDiv64 (hx : x.val = .fin a) (hy : y.val = .fin b) (h0 : 0 ≤ a) (h1 : a ≤ b) :
    ∃ r, (safeDiv x y).val = .fin r ∧ 0 ≤ r ∧ r ≤ 1 := by
  rw [safeDiv]
  by_cases hb : b = 0
  · subst hb
    have ha : a = 0 := le_antisymm h1 h0
    have hn : isNaN (x /. y) = true := by rw [B64.isNaN_val, B64.val_div_zero hx hy, if_pos ha]
    rw [hn, Bool.true_or, if_pos rfl]
    exact ⟨0, val_zero64, le_rfl, zero_le_one⟩
  · have hbp : 0 < b := lt_of_le_of_ne (h0.trans h1) (Ne.symm hb)
    obtain ⟨r, hr, h2, h3⟩ := div64 hx hy hb srep_zero srep_one (div_nonneg h0 hbp.le) ((div_le_one hbp).mpr h1)
    have hn : isNaN (x /. y) = false := by
      rw [← Bool.not_eq_true, B64.isNaN_val, hr]; simp
    have hi : isInf (x /. y) = false := by
      rw [← Bool.not_eq_true, B64.isInf_val, hr]; simp
    rw [hn, hi, Bool.or_false, if_neg (by simp)]
    exact ⟨r, hr, h2, h3⟩

end rules

end Verif.Props
