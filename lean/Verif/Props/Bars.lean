import Verif.Props.Crossing
import Verif.Ta.Exact

/-!
# Candles that hold numbers

Vocabulary for the properties in exact arithmetic: a series whose prices and volumes are the numbers of a list of
bars.
-/

set_option linter.unusedSectionVars false

namespace Verif.Props
open Verif Verif.Klines Verif.Ta Verif.Ind GoFloat XF

variable {K : Type} [Field K] [LinearOrder K]

/-- Open, high, low, close and volume of a candle as numbers. -/
structure Bar (K : Type) where
  o : K
  h : K
  l : K
  c : K
  v : K

/-- Open and close lie between low and high. -/
def Bar.WF (b : Bar K) : Prop := b.l ≤ b.o ∧ b.o ≤ b.h ∧ b.l ≤ b.c ∧ b.c ≤ b.h

/-- The candles of `it` hold the numbers `bs`. -/
def Holds (it : Item (XF K)) (bs : List (Bar K)) : Prop :=
  it.candles.map (fun c => (c.open_, c.high, c.low, c.close, c.volume)) =
    bs.map fun b => (.fin b.o, .fin b.h, .fin b.l, .fin b.c, .fin b.v)

/-- A series holding the given bars. -/
def barItem (bs : List (Bar K)) : Item (XF K) :=
  { exchange := "x", interval := 60, symbol := "s", code := "c",
    candles := bs.map fun b => candleOf 0 b.o b.h b.l b.c b.v }

theorem holds_barItem (bs : List (Bar K)) : Holds (barItem bs) bs := by
  simp [Holds, barItem, candleOf, Function.comp_def]

/-- The columns of a bar series. -/
structure Cols (n : Nat) (x : Nat → Candle (XF K)) (b : Nat → Bar K) : Prop where
  op : Ind.op x = finF fun i => (b i).o
  hi : Ind.hi x = finF fun i => (b i).h
  lo : Ind.lo x = finF fun i => (b i).l
  cl : Ind.cl x = finF fun i => (b i).c
  vo : Ind.vo x = finF fun i => (b i).v

theorem Holds.cols₀ {it : Item (XF K)} {bs : List (Bar K)} (h : Holds it bs) :
    ∃ x b, it.candles = tab bs.length x ∧ bs = tab bs.length b ∧ Cols bs.length x b ∧
      ∀ i, bs.length ≤ i → b i = ⟨0, 0, 0, 0, 0⟩ := by
  have hl : it.candles.length = bs.length := by simpa using congrArg List.length h
  obtain ⟨x, hx⟩ := candles_tab it
  obtain ⟨b, hb, hb0⟩ : ∃ b, bs = tab bs.length b ∧ ∀ i, bs.length ≤ i → b i = ⟨0, 0, 0, 0, 0⟩ := by
    refine ⟨fun i => bs[i]?.getD ⟨0, 0, 0, 0, 0⟩, eq_tab_of_forall rfl fun i hi => by simp [hi], fun i hi => ?_⟩
    simp [List.getElem?_eq_none hi]
  rw [hl] at hx
  have key : ∀ i < bs.length, ((x i).open_, (x i).high, (x i).low, (x i).close, (x i).volume) =
      (XF.fin (b i).o, XF.fin (b i).h, XF.fin (b i).l, XF.fin (b i).c, XF.fin (b i).v) := by
    intro i hi
    have := congrArg (fun l => l[i]?) h
    simp only [List.getElem?_map] at this
    rw [hx] at this
    rw [tab_getElem?_lt hi] at this
    rw [hb, tab_getElem?_lt hi] at this
    exact Option.some.inj this
  refine ⟨fun i => if i < bs.length then x i else candleOf 0 (b i).o (b i).h (b i).l (b i).c (b i).v, b, ?_, hb,
    ⟨?_, ?_, ?_, ?_, ?_⟩, hb0⟩
  · rw [hx]; exact tab_ext fun i hi => by simp [hi]
  all_goals
    funext i
    simp only [Ind.op, Ind.hi, Ind.lo, Ind.cl, Ind.vo]
    split
    · next hi => have := key i hi; simp only [Prod.mk.injEq] at this; simp [this]
    · rfl

theorem Holds.cols {it : Item (XF K)} {bs : List (Bar K)} (h : Holds it bs) :
    ∃ x b, it.candles = tab bs.length x ∧ bs = tab bs.length b ∧ Cols bs.length x b :=
  let ⟨x, b, h1, h2, h3, _⟩ := h.cols₀
  ⟨x, b, h1, h2, h3⟩

theorem mem_tab {α : Type} {n : Nat} {f : Nat → α} {a : α} : a ∈ tab n f ↔ ∃ i < n, f i = a := by
  rw [List.mem_iff_getElem?]
  constructor
  · rintro ⟨i, hi⟩
    have hl : i < n := by simpa using (List.getElem?_eq_some_iff.mp hi).1
    rw [tab_getElem?_lt hl] at hi
    exact ⟨i, hl, Option.some.inj hi⟩
  · rintro ⟨i, hl, rfl⟩
    exact ⟨i, tab_getElem?_lt hl⟩

/-- The window values of a column. -/
theorem isGreatest_window {p i n : Nat} (f : Bar K → K) (b : Nat → Bar K) (hi : i < n) {m : K}
    (h : IsGreatest {v | ∃ j, i + 1 ≤ j + p ∧ j ≤ i ∧ f (b j) = v} m) :
    IsGreatest {v | ∃ q ∈ window p i (tab n b), f q = v} m := by
  have e : {v | ∃ q ∈ window p i (tab n b), f q = v} = {v | ∃ j, i + 1 ≤ j + p ∧ j ≤ i ∧ f (b j) = v} := by
    ext v
    simp only [Set.mem_ofPred_eq, mem_window]
    constructor
    · rintro ⟨q, ⟨j, h1, h2, h3⟩, h4⟩
      rw [tab_getElem?_lt (by omega)] at h3
      cases h3
      exact ⟨j, h1, h2, h4⟩
    · rintro ⟨j, h1, h2, h3⟩
      exact ⟨_, ⟨j, h1, h2, tab_getElem?_lt (by omega)⟩, h3⟩
  rwa [e]

theorem isLeast_window {p i n : Nat} (f : Bar K → K) (b : Nat → Bar K) (hi : i < n) {m : K}
    (h : IsLeast {v | ∃ j, i + 1 ≤ j + p ∧ j ≤ i ∧ f (b j) = v} m) :
    IsLeast {v | ∃ q ∈ window p i (tab n b), f q = v} m := by
  have e : {v | ∃ q ∈ window p i (tab n b), f q = v} = {v | ∃ j, i + 1 ≤ j + p ∧ j ≤ i ∧ f (b j) = v} := by
    ext v
    simp only [Set.mem_ofPred_eq, mem_window]
    constructor
    · rintro ⟨q, ⟨j, h1, h2, h3⟩, h4⟩
      rw [tab_getElem?_lt (by omega)] at h3
      cases h3
      exact ⟨j, h1, h2, h4⟩
    · rintro ⟨j, h1, h2, h3⟩
      exact ⟨_, ⟨j, h1, h2, tab_getElem?_lt (by omega)⟩, h3⟩
  rwa [e]

/-- `Max` of a finite series is finite and the largest value of the window. -/
theorem maxF_fin {p : Nat} (hp : 0 < p) (a : Nat → K) (i : Nat) :
    ∃ m, maxF p (finF a) i = .fin m ∧ IsGreatest {v | ∃ j, i + 1 ≤ j + p ∧ j ≤ i ∧ a j = v} m := by
  obtain ⟨hg, ⟨j, h1, h2, h3⟩, h4⟩ := maxF_spec (XF.ordKey (K := K)) hp (x := finF a) (k := i)
    (fun _ _ => by show XF.fin _ ≠ nan; intro h; cases h)
  have e : maxF p (finF a) i = .fin (a j) := by
    have h3 : toExt (maxF p (finF a) i) = toExt (.fin (a j)) := h3
    have hg : maxF p (finF a) i ≠ nan := hg
    generalize maxF p (finF a) i = y at h3 hg
    cases y <;> simp_all [toExt]
  refine ⟨a j, e, ⟨j, h1, h2, rfl⟩, ?_⟩
  rintro v ⟨k, k1, k2, rfl⟩
  have := h4 k k1 k2
  rw [e] at this
  have this : toExt (XF.fin (a k)) ≤ toExt (.fin (a j)) := this
  simpa [toExt] using this

/-- `Min` of a finite series is finite and the smallest value of the window. -/
theorem minF_fin {p : Nat} (hp : 0 < p) (a : Nat → K) (i : Nat) :
    ∃ m, minF p (finF a) i = .fin m ∧ IsLeast {v | ∃ j, i + 1 ≤ j + p ∧ j ≤ i ∧ a j = v} m := by
  obtain ⟨hg, ⟨j, h1, h2, h3⟩, h4⟩ := minF_spec (XF.ordKey (K := K)) hp (x := finF a) (k := i)
    (fun _ _ => by show XF.fin _ ≠ nan; intro h; cases h)
  have e : minF p (finF a) i = .fin (a j) := by
    have h3 : toExt (minF p (finF a) i) = toExt (.fin (a j)) := h3
    have hg : minF p (finF a) i ≠ nan := hg
    generalize minF p (finF a) i = y at h3 hg
    cases y <;> simp_all [toExt]
  refine ⟨a j, e, ⟨j, h1, h2, rfl⟩, ?_⟩
  rintro v ⟨k, k1, k2, rfl⟩
  have := h4 k k1 k2
  rw [e] at this
  have this : toExt (XF.fin (a j)) ≤ toExt (.fin (a k)) := this
  simpa [toExt] using this

/-- Records and bars of one index, from the closed form. -/
theorem at_index {I : Indicator (XF K)} {ok} {G} (hy : Yields I ok G) {it : Item (XF K)} {n : Nat}
    {x : Nat → Candle (XF K)} {b : Nat → Bar K} (hx : it.candles = tab n x) {d : List I.D}
    (hd : I.data it = .ok d) {i : Nat} {r : I.D} (hr : d[i]? = some r) :
    i < n ∧ ok n ∧ r = G x i ∧ (tab n b)[i]? = some (b i) := by
  obtain ⟨hok, rfl⟩ := yields_inv hy hx hd
  have hi : i < n := by simpa using (List.getElem?_eq_some_iff.mp hr).1
  rw [tab_getElem?_lt hi] at hr
  exact ⟨hi, hok, (Option.some.inj hr).symm, tab_getElem?_lt hi⟩

end Verif.Props
