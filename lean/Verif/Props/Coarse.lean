import Verif.Props.KlineConvert
import Verif.Props.WindowLines
import Verif.Props.Percent
import Verif.Props.F64Base

/-!
# Coarser candles (C131)

Upscaling in two steps is upscaling in one, and the lines that read highs, lows and the last close do not notice it.
-/

set_option linter.unusedSectionVars false

namespace Verif.Props
open Verif Verif.Klines Verif.Ta Verif.Ind GoFloat XF

variable {K : Type} [Field K] [LinearOrder K] [IsStrictOrderedRing K]

/-- A series without gaps that starts at the second `t0`, with the numbers `bs` and no low of 0. -/
structure Regular (t0 : Int) (e : Item (XF K)) (bs : List (Bar K)) : Prop where
  interval : 0 < e.interval
  start : 0 < t0
  holds : Holds e bs
  low : ∀ b ∈ bs, b.l ≠ 0
  times : ∀ (x : Nat) b, e.candles[x]? = some b → ofUnix b.timeUnix = ofUnix t0 + x * e.interval

/-- Each bar of `bs'` is made of `r` bars of `bs`: first open, last close, total volume, highest high and lowest low. The highs and
lows of the bars left over are in the last bar (C15). -/
def Coarse (r : Nat) (bs bs' : List (Bar K)) : Prop :=
  bs'.length = bs.length / r ∧ ∀ (j : Nat) b, bs'[j]? = some b →
    b.o = col Bar.o bs (j * r) ∧ b.c = col Bar.c bs (j * r + r - 1) ∧ b.v = ∑ i ∈ Finset.Ico (j * r) (j * r + r), col Bar.v bs i ∧
    IsMaxOn (col Bar.h bs) (j * r) (if j + 1 = bs.length / r then bs.length else j * r + r) b.h ∧
    IsMinOn (col Bar.l bs) (j * r) (if j + 1 = bs.length / r then bs.length else j * r + r) b.l

theorem Coarse.unique {r : Nat} {bs bs' bs'' : List (Bar K)} (h : Coarse r bs bs') (h' : Coarse r bs bs'') : bs' = bs'' := by
  refine List.ext_getElem (h.1.trans h'.1.symm) fun j h1 h2 => ?_
  obtain ⟨a1, a2, a3, a4, a5⟩ := h.2 j _ (List.getElem?_eq_getElem h1)
  obtain ⟨b1, b2, b3, b4, b5⟩ := h'.2 j _ (List.getElem?_eq_getElem h2)
  have e4 := a4.unique b4
  have e5 := a5.unique b5
  generalize bs'[j] = u at *
  generalize bs''[j] = w at *
  cases u
  cases w
  simp only at *
  simp_all

theorem maxOn_merge {f g : Nat → K} {lo up : Nat → Nat} {a b A B : Nat} {y : K} (hy : IsMaxOn g a b y)
    (hg : ∀ j, a ≤ j → j < b → IsMaxOn f (lo j) (up j) (g j))
    (hc : ∀ i, (A ≤ i ∧ i < B) ↔ ∃ j, a ≤ j ∧ j < b ∧ lo j ≤ i ∧ i < up j) : IsMaxOn f A B y := by
  obtain ⟨⟨j, h1, h2, rfl⟩, hub⟩ := hy
  constructor
  · obtain ⟨⟨i, h3, h4, h5⟩, -⟩ := hg j h1 h2
    have := (hc i).mpr ⟨j, h1, h2, h3, h4⟩
    exact ⟨i, this.1, this.2, h5⟩
  · rintro z ⟨i, h3, h4, rfl⟩
    obtain ⟨k, k1, k2, k3, k4⟩ := (hc i).mp ⟨h3, h4⟩
    exact ((hg k k1 k2).2 ⟨i, k3, k4, rfl⟩).trans (hub ⟨k, k1, k2, rfl⟩)

theorem minOn_merge {f g : Nat → K} {lo up : Nat → Nat} {a b A B : Nat} {y : K} (hy : IsMinOn g a b y)
    (hg : ∀ j, a ≤ j → j < b → IsMinOn f (lo j) (up j) (g j))
    (hc : ∀ i, (A ≤ i ∧ i < B) ↔ ∃ j, a ≤ j ∧ j < b ∧ lo j ≤ i ∧ i < up j) : IsMinOn f A B y := by
  obtain ⟨⟨j, h1, h2, rfl⟩, hub⟩ := hy
  constructor
  · obtain ⟨⟨i, h3, h4, h5⟩, -⟩ := hg j h1 h2
    have := (hc i).mpr ⟨j, h1, h2, h3, h4⟩
    exact ⟨i, this.1, this.2, h5⟩
  · rintro z ⟨i, h3, h4, rfl⟩
    obtain ⟨k, k1, k2, k3, k4⟩ := (hc i).mp ⟨h3, h4⟩
    exact (hub ⟨k, k1, k2, rfl⟩).trans ((hg k k1 k2).2 ⟨i, k3, k4, rfl⟩)

theorem sum_blocks (f : Nat → K) (r a m : Nat) :
    ∑ j ∈ Finset.Ico a (a + m), ∑ i ∈ Finset.Ico (j * r) (j * r + r), f i = ∑ i ∈ Finset.Ico (a * r) ((a + m) * r), f i := by
  induction m with
  | zero => simp
  | succ m ih =>
    rw [← Nat.add_assoc, Finset.sum_Ico_succ_top (by omega), ih, show (a + m + 1) * r = (a + m) * r + r by ring]
    exact Finset.sum_Ico_consecutive f (Nat.mul_le_mul_right _ (by omega)) (by omega)

theorem coarse_col {f : Bar K → K} {bs : List (Bar K)} {j : Nat} {b : Bar K} (h : bs[j]? = some b) : col f bs j = f b := by
  rw [col, h]; rfl

/-- The positions of the fine bars that make up a run of coarse bars. -/
theorem cover {n r a b : Nat} (hr : 0 < r) (hb : b ≤ n / r) (hab : a < b) (i : Nat) :
    (a * r ≤ i ∧ i < (if b = n / r then n else b * r)) ↔
      ∃ j, a ≤ j ∧ j < b ∧ j * r ≤ i ∧ i < (if j + 1 = n / r then n else j * r + r) := by
  have hnr : n / r * r ≤ n := Nat.div_mul_le_self n r
  constructor
  · rintro ⟨h1, h2⟩
    by_cases hi : i < b * r
    · have hlt : i / r < b := Nat.div_lt_of_lt_mul (by rw [Nat.mul_comm]; exact hi)
      refine ⟨i / r, (Nat.le_div_iff_mul_le hr).mpr h1, hlt, Nat.div_mul_le_self i r, ?_⟩
      have := Nat.lt_div_mul_add (a := i) hr
      split
      · rename_i he
        have : i < b * r := hi
        have : b * r ≤ n / r * r := Nat.mul_le_mul_right _ hb
        omega
      · omega
    · have hbn : b = n / r := by by_contra h; rw [if_neg h] at h2; omega
      rw [if_pos hbn] at h2
      refine ⟨b - 1, by omega, by omega, ?_, ?_⟩
      · have : (b - 1) * r ≤ b * r := Nat.mul_le_mul_right _ (by omega)
        omega
      · rw [if_pos (by omega)]; exact h2
  · rintro ⟨j, h1, h2, h3, h4⟩
    have g1 : a * r ≤ j * r := Nat.mul_le_mul_right _ h1
    have g2 : (j + 1) * r ≤ b * r := Nat.mul_le_mul_right _ h2
    have g3 : b * r ≤ n / r * r := Nat.mul_le_mul_right _ hb
    have g4 : (j + 1) * r = j * r + r := by ring
    refine ⟨by omega, ?_⟩
    split at h4
    · rw [if_pos (by omega)]; exact h4
    · split <;> omega

/-- Bars made of bars: in one step or in two. -/
theorem Coarse.trans {r s : Nat} (hr : 0 < r) (hs : 0 < s) {bs bs' bs'' : List (Bar K)} (h : Coarse r bs bs') (h' : Coarse s bs' bs'') :
    Coarse (s * r) bs bs'' := by
  have hdiv : bs.length / (s * r) = bs'.length / s := by rw [h.1, Nat.div_div_eq_div_mul, Nat.mul_comm r s]
  refine ⟨by rw [h'.1, hdiv], fun k b hb => ?_⟩
  have hk : k < bs'.length / s := by rw [← h'.1]; exact (List.getElem?_eq_some_iff.mp hb).1
  have hks : k * s + s ≤ bs'.length := by
    have : (k + 1) * s ≤ bs'.length := (Nat.le_div_iff_mul_le hs).mp hk
    linarith
  obtain ⟨e1, e2, e3, e4, e5⟩ := h'.2 k b hb
  have at' : ∀ j, j < bs'.length → ∃ q, bs'[j]? = some q := fun j hj => ⟨_, List.getElem?_eq_getElem hj⟩
  refine ⟨?_, ?_, ?_, ?_, ?_⟩
  · obtain ⟨q, hq⟩ := at' (k * s) (by omega)
    rw [e1, coarse_col hq, (h.2 _ q hq).1, Nat.mul_assoc]
  · obtain ⟨q, hq⟩ := at' (k * s + s - 1) (by omega)
    rw [e2, coarse_col hq, (h.2 _ q hq).2.1]
    congr 1
    have : (k * s + s - 1) * r + r = k * (s * r) + s * r := by
      obtain ⟨m, hm⟩ : ∃ m, k * s + s = m + 1 := ⟨k * s + s - 1, by omega⟩
      rw [hm, Nat.add_sub_cancel, ← Nat.succ_mul, Nat.succ_eq_add_one, ← hm]
      ring
    omega
  · rw [e3, Finset.sum_congr rfl (g := fun j => ∑ i ∈ Finset.Ico (j * r) (j * r + r), col Bar.v bs i), sum_blocks,
      show (k * s + s) * r = k * (s * r) + s * r by ring, Nat.mul_assoc]
    intro j hj
    obtain ⟨q, hq⟩ := at' j (by have := Finset.mem_Ico.mp hj; omega)
    rw [coarse_col hq, (h.2 _ q hq).2.2.1]
  all_goals
    have hB : (if k + 1 = bs.length / (s * r) then bs.length else k * (s * r) + s * r) =
        (if (if k + 1 = bs'.length / s then bs'.length else k * s + s) = bs.length / r then bs.length
          else (if k + 1 = bs'.length / s then bs'.length else k * s + s) * r) := by
      rw [hdiv, ← h.1]
      by_cases hl : k + 1 = bs'.length / s
      · rw [if_pos hl, if_pos hl, if_pos rfl]
      · rw [if_neg hl, if_neg hl, if_neg]
        · ring
        · intro hc
          have : (k + 1 + 1) * s ≤ bs'.length := (Nat.le_div_iff_mul_le hs).mp (by omega)
          have : (k + 1 + 1) * s = k * s + s + s := by ring
          omega
    have hle : (if k + 1 = bs'.length / s then bs'.length else k * s + s) ≤ bs.length / r := by
      rw [← h.1]; split <;> omega
    have hlt : k * s < (if k + 1 = bs'.length / s then bs'.length else k * s + s) := by split <;> omega
    have hcov := fun i => cover (n := bs.length) hr hle hlt i
    rw [hB, ← Nat.mul_assoc]
  · refine maxOn_merge e4 (fun j h1 h2 => ?_) hcov
    obtain ⟨q, hq⟩ := at' j (by rw [← h.1] at hle; omega)
    rw [coarse_col hq]
    exact (h.2 _ q hq).2.2.2.1
  · refine minOn_merge e5 (fun j h1 h2 => ?_) hcov
    obtain ⟨q, hq⟩ := at' j (by rw [← h.1] at hle; omega)
    rw [coarse_col hq]
    exact (h.2 _ q hq).2.2.2.2

theorem holds_get {e : Item (XF K)} {bs : List (Bar K)} (h : Holds e bs) : e.candles.length = bs.length ∧
    ∀ (x : Nat) b c, e.candles[x]? = some c → bs[x]? = some b →
      c.open_ = .fin b.o ∧ c.high = .fin b.h ∧ c.low = .fin b.l ∧ c.close = .fin b.c ∧ c.volume = .fin b.v := by
  have hl : e.candles.length = bs.length := by simpa using congrArg List.length h
  refine ⟨hl, fun x b c hc hb => ?_⟩
  have := congrArg (fun l => l[x]?) h
  simp only [List.getElem?_map, hc, hb, Option.map_some, Option.some.injEq, Prod.mk.injEq] at this
  exact this

/-- C15 in terms of bars. -/
theorem upscale_bars (now : Int) {t0 : Int} {e : Item (XF K)} {bs : List (Bar K)} (he : Regular t0 e bs) {r : Nat} (hr : 2 ≤ r)
    (hrn : r ≤ bs.length) (halign : r * e.interval ∣ ofUnix t0 + zeroOffset) :
    ∃ it bs', ConvertToNewInterval now (some e) (r * e.interval) = .ok (.ok it) ∧ it.exchange = e.exchange ∧
      it.interval = r * e.interval ∧ Regular t0 it bs' ∧ Coarse r bs bs' ∧
      ∀ (j : Nat) b c, bs'[j]? = some b → it.candles[j]? = some c → (b.o ≠ 0 → c.changePercent = .fin ((b.c - b.o) / b.o)) ∧
        c.isBull = decide (b.o < b.c) ∧ c.amount = .fin 0 ∧ c.count = 0 := by
  obtain ⟨hlen, hget⟩ := holds_get he.holds
  have hns : (0 : Int) < nsec := by decide
  obtain ⟨s, hs⟩ : ∃ s : Int, e.interval = s * nsec := by
    have h1 : 1 < e.candles.length := by omega
    have := he.times 1 _ (List.getElem?_eq_getElem h1)
    refine ⟨e.candles[1].timeUnix - t0, ?_⟩
    unfold ofUnix at this
    rw [sub_mul, this]; simp
  obtain ⟨it, hc, h1, h2, h3, h4⟩ := C15_upscale_partial now e bs.length r (col Bar.o bs) (col Bar.h bs)
    (fun x => if x < bs.length then col Bar.l bs x else 1) (col Bar.c bs) (col Bar.v bs) hlen he.interval hr hrn t0 he.start he.times
    (fun x b hb => by
      have hx : x < bs.length := by rw [← hlen]; exact (List.getElem?_eq_some_iff.mp hb).1
      have hbx := List.getElem?_eq_getElem hx
      obtain ⟨g1, g2, g3, g4, g5⟩ := hget x _ b hb hbx
      refine ⟨rfl, ?_, ?_, ?_, ?_, ?_⟩
      · rw [coarse_col hbx, g1]
      · rw [coarse_col hbx, g2]
      · simp only [if_pos hx]; rw [coarse_col hbx, g3]
      · rw [coarse_col hbx, g4]
      · rw [coarse_col hbx, g5])
    (fun x => by
      split
      · rename_i hx
        rw [coarse_col (List.getElem?_eq_getElem hx)]
        exact he.low _ (List.getElem_mem _)
      · exact one_ne_zero) halign
  have hnr : bs.length / r * r ≤ bs.length := Nat.div_mul_le_self _ r
  have low : ∀ {lo hi : Nat} {y : K}, hi ≤ bs.length → IsMinOn (fun x => if x < bs.length then col Bar.l bs x else 1) lo hi y →
      IsMinOn (col Bar.l bs) lo hi y := by
    intro lo hi y hhi hy
    refine ⟨?_, ?_⟩
    · obtain ⟨i, i1, i2, i3⟩ := hy.1
      exact ⟨i, i1, i2, by rw [i3]; beta_reduce; rw [if_pos (by omega)]⟩
    · rintro z ⟨i, i1, i2, rfl⟩
      exact hy.2 ⟨i, i1, i2, by beta_reduce; rw [if_pos (by omega)]⟩
  have hex : ∀ j, ∃ b : Bar K, ∀ c, it.candles[j]? = some c → c.open_ = .fin b.o ∧ c.high = .fin b.h ∧ c.low = .fin b.l ∧
      c.close = .fin b.c ∧ c.volume = .fin b.v ∧ b.o = col Bar.o bs (j * r) ∧ b.c = col Bar.c bs (j * r + r - 1) ∧
      b.v = ∑ i ∈ Finset.Ico (j * r) (j * r + r), col Bar.v bs i ∧
      IsMaxOn (col Bar.h bs) (j * r) (if j + 1 = bs.length / r then bs.length else j * r + r) b.h ∧
      IsMinOn (col Bar.l bs) (j * r) (if j + 1 = bs.length / r then bs.length else j * r + r) b.l := by
    intro j
    cases hcj : it.candles[j]? with
    | none => exact ⟨⟨0, 0, 0, 0, 0⟩, fun c h => by cases h⟩
    | some c =>
      obtain ⟨y, hy1, hy2⟩ := (h4 j c hcj).high
      obtain ⟨z, hz1, hz2⟩ := (h4 j c hcj).low
      have hj : j < bs.length / r := by rw [← h3]; exact (List.getElem?_eq_some_iff.mp hcj).1
      have hjr : (j + 1) * r ≤ bs.length / r * r := Nat.mul_le_mul_right _ hj
      have hjr' : (j + 1) * r = j * r + r := by ring
      refine ⟨⟨col Bar.o bs (j * r), y, z, col Bar.c bs (j * r + r - 1), ∑ i ∈ Finset.Ico (j * r) (j * r + r), col Bar.v bs i⟩,
        fun c' h => ?_⟩
      obtain rfl := Option.some.inj h
      exact ⟨(h4 j c hcj).open_, hy1, hz1, (h4 j c hcj).close, (h4 j c hcj).volume, rfl, rfl, rfl, hy2,
        low (by split <;> omega) hz2⟩
  choose B hB using hex
  have hbar : ∀ (j : Nat) b, (tab (bs.length / r) B)[j]? = some b → b = B j ∧ ∃ c, it.candles[j]? = some c := fun j b hb => by
    have hj : j < bs.length / r := by simpa using (List.getElem?_eq_some_iff.mp hb).1
    rw [tab_getElem?_lt hj] at hb
    exact ⟨(Option.some.inj hb).symm, _, List.getElem?_eq_getElem (by omega)⟩
  have hco : Coarse r bs (tab (bs.length / r) B) := by
    refine ⟨tab_length _ _, fun j b hb => ?_⟩
    obtain ⟨rfl, c, hc⟩ := hbar j b hb
    exact (hB j c hc).2.2.2.2.2
  refine ⟨it, tab (bs.length / r) B, hc, h1, h2, ⟨?_, he.start, ?_, ?_, ?_⟩, hco, ?_⟩
  · rw [h2]
    have : (0 : Int) < r := by omega
    exact mul_pos this he.interval
  · refine List.ext_getElem? fun j => ?_
    rw [List.getElem?_map, List.getElem?_map]
    by_cases hj : j < bs.length / r
    · have hcj := List.getElem?_eq_getElem (show j < it.candles.length by omega)
      obtain ⟨g1, g2, g3, g4, g5, -⟩ := hB j _ hcj
      rw [hcj, tab_getElem?_lt hj, Option.map_some, Option.map_some, g1, g2, g3, g4, g5]
    · rw [List.getElem?_eq_none (by omega), List.getElem?_eq_none (by simpa using hj)]
      rfl
  · intro b hb
    obtain ⟨j, hj⟩ := List.mem_iff_getElem?.mp hb
    have hj' : j < bs.length / r := by simpa using (List.getElem?_eq_some_iff.mp hj).1
    have hjr : (j + 1) * r ≤ bs.length / r * r := Nat.mul_le_mul_right _ hj'
    have hjr' : (j + 1) * r = j * r + r := by ring
    obtain ⟨-, -, -, -, ⟨i, i1, i2, i3⟩, -⟩ := hco.2 j b hj
    have hi : i < bs.length := by split at i2 <;> omega
    rw [i3, coarse_col (List.getElem?_eq_getElem hi)]
    exact he.low _ (List.getElem_mem _)
  · intro j b hb
    rw [(h4 j b hb).time, h2, hs]
    unfold ofUnix unix
    rw [← mul_assoc, Int.mul_ediv_cancel _ hns.ne']
    ring
  · intro j b c hb hc
    obtain ⟨rfl, -⟩ := hbar j b hb
    obtain ⟨-, -, -, -, -, g1, g2, -⟩ := hB j c hc
    rw [g1, g2]
    exact ⟨(h4 j c hc).change, (h4 j c hc).bull, (h4 j c hc).amount, (h4 j c hc).count⟩

/-- **C131** Upscaling `r` to 1 and the result `s` to 1 gives the same candles as upscaling `s * r` to 1, left-over candles
included. -/
theorem C131_two_steps (now : Int) {t0 : Int} {e : Item (XF K)} {bs : List (Bar K)} (he : Regular t0 e bs) (ho : ∀ b ∈ bs, b.o ≠ 0)
    {r s : Nat} (hr : 2 ≤ r) (hs : 2 ≤ s) (hn : s * r ≤ bs.length) (halign : (s * r : Nat) * e.interval ∣ ofUnix t0 + zeroOffset) :
    ∃ once mid twice, ConvertToNewInterval now (some e) ((s * r : Nat) * e.interval) = .ok (.ok once) ∧
      ConvertToNewInterval now (some e) (r * e.interval) = .ok (.ok mid) ∧
      ConvertToNewInterval now (some mid) ((s * r : Nat) * e.interval) = .ok (.ok twice) ∧
      once.candles = twice.candles ∧ once.interval = twice.interval ∧ once.exchange = twice.exchange := by
  have hr1 : r ≤ bs.length := le_trans (Nat.le_mul_of_pos_left r (by omega)) hn
  have hsr : 2 ≤ s * r := le_trans hs (Nat.le_mul_of_pos_right s (by omega))
  obtain ⟨once, b1, c1, x1, i1, g1, k1, f1⟩ := upscale_bars now he hsr hn halign
  obtain ⟨mid, b2, c2, x2, i2, g2, k2, f2⟩ := upscale_bars now he hr hr1
    (dvd_trans ⟨s, by push_cast; ring⟩ halign)
  have hs2 : s ≤ b2.length := by rw [k2.1]; exact (Nat.le_div_iff_mul_le (by omega)).mpr hn
  have hint : (s : Int) * mid.interval = (s * r : Nat) * e.interval := by rw [i2]; push_cast; ring
  obtain ⟨twice, b3, c3, x3, i3, g3, k3, f3⟩ := upscale_bars now g2 hs hs2 (by rw [hint]; exact halign)
  rw [hint] at c3
  refine ⟨once, mid, twice, c1, c2, c3, ?_, by rw [i1, i3, hint], by rw [x1, x3, x2]⟩
  obtain rfl : b1 = b3 := k1.unique (k2.trans (by omega) (by omega) k3)
  obtain ⟨l1, v1⟩ := holds_get g1.holds
  obtain ⟨l3, v3⟩ := holds_get g3.holds
  refine List.ext_getElem (by rw [l1, l3]) fun j h1 h3 => ?_
  have hj1 := List.getElem?_eq_getElem h1
  have hj3 := List.getElem?_eq_getElem h3
  have hb := List.getElem?_eq_getElem (show j < b1.length by omega)
  have hne : b1[j].o ≠ 0 := by
    have h5 : j < bs.length / (s * r) := by rw [← k1.1]; omega
    have h6 : (j + 1) * (s * r) ≤ bs.length := (Nat.le_div_iff_mul_le (by omega)).mp h5
    have h7 : (j + 1) * (s * r) = j * (s * r) + s * r := by ring
    rw [(k1.2 j _ hb).1, coarse_col (List.getElem?_eq_getElem (show j * (s * r) < bs.length by omega))]
    exact ho _ (List.getElem_mem _)
  obtain ⟨p1, p2, p3, p4, p5⟩ := v1 j _ _ hj1 hb
  obtain ⟨q1, q2, q3, q4, q5⟩ := v3 j _ _ hj3 hb
  obtain ⟨p6, p7, p8, p9⟩ := f1 j _ _ hb hj1
  obtain ⟨q6, q7, q8, q9⟩ := f3 j _ _ hb hj3
  have t1 := g1.times j _ hj1
  have t3 := g3.times j _ hj3
  have ht : once.candles[j].timeUnix = twice.candles[j].timeUnix := by
    rw [i1] at t1
    rw [i3, hint, ← t1] at t3
    unfold ofUnix at t3
    exact (Int.eq_of_mul_eq_mul_right (by decide) t3).symm
  replace p6 := p6 hne
  replace q6 := q6 hne
  generalize once.candles[j] = c at *
  generalize twice.candles[j] = c' at *
  cases c
  cases c'
  simp only at *
  simp [*]

theorem window_max {f : Bar K → K} {bs : List (Bar K)} {p i : Nat} (hi : i < bs.length) {y : K} :
    IsGreatest {v | ∃ q ∈ window p i bs, f q = v} y ↔ IsMaxOn (col f bs) (i + 1 - p) (i + 1) y := by
  have : {v | ∃ q ∈ window p i bs, f q = v} = {z | ∃ k, i + 1 - p ≤ k ∧ k < i + 1 ∧ z = col f bs k} := by
    ext v
    constructor
    · rintro ⟨q, hq, rfl⟩
      obtain ⟨j, h1, h2, h3⟩ := mem_window.mp hq
      exact ⟨j, by omega, by omega, by rw [coarse_col h3]⟩
    · rintro ⟨k, h1, h2, rfl⟩
      have hk := List.getElem?_eq_getElem (show k < bs.length by omega)
      exact ⟨_, mem_window.mpr ⟨k, by omega, by omega, hk⟩, by rw [coarse_col hk]⟩
  rw [this, IsMaxOn]

theorem window_min {f : Bar K → K} {bs : List (Bar K)} {p i : Nat} (hi : i < bs.length) {y : K} :
    IsLeast {v | ∃ q ∈ window p i bs, f q = v} y ↔ IsMinOn (col f bs) (i + 1 - p) (i + 1) y := by
  have : {v | ∃ q ∈ window p i bs, f q = v} = {z | ∃ k, i + 1 - p ≤ k ∧ k < i + 1 ∧ z = col f bs k} := by
    ext v
    constructor
    · rintro ⟨q, hq, rfl⟩
      obtain ⟨j, h1, h2, h3⟩ := mem_window.mp hq
      exact ⟨j, by omega, by omega, by rw [coarse_col h3]⟩
    · rintro ⟨k, h1, h2, rfl⟩
      have hk := List.getElem?_eq_getElem (show k < bs.length by omega)
      exact ⟨_, mem_window.mpr ⟨k, by omega, by omega, hk⟩, by rw [coarse_col hk]⟩
  rw [this, IsMinOn]

/-- The extremes of the last `p` coarse bars are those of the last `p * r` fine bars. -/
theorem Coarse.extremes {r : Nat} (hr : 0 < r) {bs bs' : List (Bar K)} (h : Coarse r bs bs') {p j : Nat} (hp : 0 < p)
    (hj : j + 1 < bs'.length ∨ j + 1 = bs'.length ∧ r ∣ bs.length) {u l u' l' : K}
    (hu : IsGreatest {v | ∃ q ∈ window p j bs', q.h = v} u) (hl : IsLeast {v | ∃ q ∈ window p j bs', q.l = v} l)
    (hu' : IsGreatest {v | ∃ q ∈ window (p * r) (j * r + r - 1) bs, q.h = v} u')
    (hl' : IsLeast {v | ∃ q ∈ window (p * r) (j * r + r - 1) bs, q.l = v} l') : u = u' ∧ l = l' := by
  have hjl : j < bs'.length := by omega
  have hle : (j + 1) * r ≤ bs.length := (Nat.le_div_iff_mul_le hr).mp (by rw [← h.1]; omega)
  have hjr : (j + 1) * r = j * r + r := by ring
  have e1 : j * r + r - 1 + 1 = (j + 1) * r := by omega
  have e2 : j * r + r - 1 + 1 - p * r = (j + 1 - p) * r := by rw [e1, Nat.sub_mul]
  rw [window_max hjl] at hu
  rw [window_min hjl] at hl
  rw [window_max (by omega), e2, e1] at hu'
  rw [window_min (by omega), e2, e1] at hl'
  have hB : (if j + 1 = bs.length / r then bs.length else (j + 1) * r) = (j + 1) * r := by
    split
    · rename_i he
      rcases hj with hj | ⟨-, hd⟩
      · rw [h.1] at hj; omega
      · rw [he, Nat.div_mul_cancel hd]
    · rfl
  have hcov := fun i => cover (n := bs.length) (r := r) (a := j + 1 - p) (b := j + 1) hr (by rw [← h.1]; omega) (by omega) i
  simp only [hB] at hcov
  have at' : ∀ k, k < bs'.length → ∃ q, bs'[k]? = some q := fun k hk => ⟨_, List.getElem?_eq_getElem hk⟩
  constructor
  · refine (maxOn_merge hu (fun k h1 h2 => ?_) hcov).unique hu'
    obtain ⟨q, hq⟩ := at' k (by omega)
    rw [coarse_col hq]
    exact (h.2 _ q hq).2.2.2.1
  · refine (minOn_merge hl (fun k h1 h2 => ?_) hcov).unique hl'
    obtain ⟨q, hq⟩ := at' k (by omega)
    rw [coarse_col hq]
    exact (h.2 _ q hq).2.2.2.2

/-- **C131** On coarse candles the stochastic, Williams %R and the span B of Ichimoku with period `p` show, at each coarse candle,
what they show on the fine candles with period `p * r` at its last fine candle. The last coarse candle is excepted if fine candles
are left over. -/
theorem C131_windows (now : Int) {t0 : Int} {e : Item (XF K)} {bs : List (Bar K)} (he : Regular t0 e bs) {r : Nat} (hr : 2 ≤ r)
    (halign : r * e.interval ∣ ofUnix t0 + zeroOffset) {it : Item (XF K)}
    (hc : ConvertToNewInterval now (some e) (r * e.interval) = .ok (.ok it)) (hrn : r ≤ bs.length) {p : Nat} (hp : 1 ≤ p) {j : Nat}
    (hj : j + 1 < bs.length / r ∨ j + 1 = bs.length / r ∧ r ∣ bs.length) :
    (∀ d d', (Stoch p).data it = .ok d → (Stoch (p * r : Nat)).data e = .ok d' →
      (d[j]?).map KD.k = (d'[j * r + r - 1]?).map KD.k) ∧
    (∀ d d', (∀ b ∈ bs, b.l ≤ b.c ∧ b.c ≤ b.h) → (Williams p).data it = .ok d → (Williams (p * r : Nat)).data e = .ok d' →
      (d[j]?).map Rec.value = (d'[j * r + r - 1]?).map Rec.value) ∧
    ∀ (k k' m m' : Nat) d d', 0 < k → 0 < k' → (Ichimoku k p m).data it = .ok d → (Ichimoku k' (p * r : Nat) m').data e = .ok d' →
      (d[j]?).map Ichimoku.Data.spanB = (d'[j * r + r - 1]?).map Ichimoku.Data.spanB := by
  obtain ⟨it', bs', c1, -, -, g, k, -⟩ := upscale_bars now he hr hrn halign
  obtain rfl : it = it' := by rw [hc] at c1; injection c1 with c1; injection c1
  have hjl : j < bs'.length := by rw [k.1]; omega
  have hle : (j + 1) * r ≤ bs.length := (Nat.le_div_iff_mul_le (by omega)).mp (by omega)
  have hjr : (j + 1) * r = j * r + r := by ring
  have hil : j * r + r - 1 < bs.length := by omega
  have hj' : j + 1 < bs'.length ∨ j + 1 = bs'.length ∧ r ∣ bs.length := by rw [k.1]; exact hj
  have hpr : 1 ≤ p * r := Nat.mul_pos hp (by omega)
  have hb := List.getElem?_eq_getElem hjl
  have hb' := List.getElem?_eq_getElem hil
  have hcl : bs'[j].c = bs[j * r + r - 1].c := by rw [(k.2 j _ hb).2.1, coarse_col hb']
  have get : ∀ {I : Indicator (XF K)} {ok G} {it : Item (XF K)} {bs : List (Bar K)} {d : List I.D} {i : Nat}, Yields I ok G →
      Holds it bs → I.data it = .ok d → i < bs.length → ∃ r, d[i]? = some r := by
    intro I ok G it bs d i hy hb hd hi
    obtain ⟨x, hx, -⟩ := hb.full
    obtain ⟨-, rfl⟩ := yields_inv hy hx hd
    exact ⟨_, tab_getElem?_lt hi⟩
  refine ⟨fun d d' hd hd' => ?_, fun d d' hw hd hd' => ?_, fun k1 k2 m m' d d' h1 h2 hd hd' => ?_⟩
  · obtain ⟨a, ha⟩ := get (Stoch.appends p).yields g.holds hd hjl
    obtain ⟨a', ha'⟩ := get (Stoch.appends _).yields he.holds hd' hil
    obtain ⟨H, L, hH, hL, e1⟩ := C44_stochastic_exact hp g.holds hd ha hb
    obtain ⟨H', L', hH', hL', e2⟩ := C44_stochastic_exact hpr he.holds hd' ha' hb'
    obtain ⟨rfl, rfl⟩ := k.extremes (by omega) hp hj' hH hL hH' hL'
    rw [ha, ha', Option.map_some, Option.map_some, e1, e2, hcl]
  · obtain ⟨a, ha⟩ := get (Williams.appends p).yields g.holds hd hjl
    obtain ⟨a', ha'⟩ := get (Williams.appends _).yields he.holds hd' hil
    have hm : ∀ (b : Bar K) (_ : bs'[j]? = some b), b.l ≤ b.c ∧ b.c ≤ b.h := by
      intro b hbj
      obtain ⟨-, q2, -, q4, q5⟩ := k.2 j b hbj
      have q6 := hw _ (List.getElem_mem hil)
      have hr2 : j * r ≤ j * r + r - 1 := by omega
      have hr3 : j * r + r - 1 < (if j + 1 = bs.length / r then bs.length else j * r + r) := by split <;> omega
      have m1 := q4.2 ⟨_, hr2, hr3, rfl⟩
      have m2 := q5.2 ⟨_, hr2, hr3, rfl⟩
      rw [coarse_col hb'] at m1 m2
      rw [q2, coarse_col hb']
      exact ⟨m2.trans q6.1, q6.2.trans m1⟩
    obtain ⟨H, L, hH, hL, e1, n1⟩ := C44_williams_range hp g.holds hd ha hb (hm _ hb)
    obtain ⟨H', L', hH', hL', e2, n2⟩ := C44_williams_range hpr he.holds hd' ha' hb' (hw _ (List.getElem_mem _))
    obtain ⟨rfl, rfl⟩ := k.extremes (by omega) hp hj' hH hL hH' hL'
    rw [ha, ha', Option.map_some, Option.map_some]
    by_cases hHL : H = L
    · rw [n1 hHL, n2 hHL]
    · obtain ⟨v, f1, f2, -⟩ := e1 hHL
      obtain ⟨v', f3, f4, -⟩ := e2 hHL
      rw [f1, f3, f2, f4, hcl]
  · obtain ⟨a, ha⟩ := get (Ichimoku.appends k1 p m).yields g.holds hd hjl
    obtain ⟨a', ha'⟩ := get (Ichimoku.appends k2 _ m').yields he.holds hd' hil
    obtain ⟨-, -, sb, -, -, -, e1, -, -, -, u, l, hu, hl, rfl⟩ := C81_ichimoku_partial h1 hp g.holds hd ha
    obtain ⟨-, -, sb', -, -, -, e2, -, -, -, u', l', hu', hl', rfl⟩ := C81_ichimoku_partial h2 hpr he.holds hd' ha'
    obtain ⟨rfl, rfl⟩ := k.extremes (by omega) hp hj' hu hl hu' hl'
    rw [ha, ha', Option.map_some, Option.map_some, e1, e2]

/-! ## Concrete series -/

/-- Nine minutes, the first at second 240. -/
def nineBars : List (Bar ℚ) := [⟨2, 5, 1, 3, 1⟩, ⟨3, 4, 2, 4, 2⟩, ⟨4, 6, 3, 5, 3⟩, ⟨5, 7, 4, 6, 4⟩, ⟨6, 9, 5, 7, 5⟩, ⟨7, 8, 6, 6, 6⟩,
  ⟨6, 7, 3, 4, 7⟩, ⟨4, 5, 2, 3, 8⟩, ⟨3, 12, 1 / 2, 11, 9⟩]

def nineMinutes : Item (XF ℚ) where
  exchange := "x"
  interval := 60 * nsec
  symbol := ""
  code := ""
  candles := tab 9 fun j => let b := nineBars.getD j ⟨0, 0, 0, 0, 0⟩; candleOf (240 + 60 * j) b.o b.h b.l b.c b.v

theorem regular_nine : Regular 240 nineMinutes nineBars where
  interval := by decide
  start := by decide
  holds := rfl
  low := by decide +kernel
  times := fun x b hx => by
    match x, hx with
    | 0, hx | 1, hx | 2, hx | 3, hx | 4, hx | 5, hx | 6, hx | 7, hx | 8, hx => cases hx; rfl

/-- Two minutes and then four, or four minutes at once: the ninth minute is left over and counts in the high and low of the last
candle either way. -/
example : ∃ once mid twice, ConvertToNewInterval 0 (some nineMinutes) ((2 * 2 : Nat) * nineMinutes.interval) = .ok (.ok once) ∧
    ConvertToNewInterval 0 (some nineMinutes) ((2 : Nat) * nineMinutes.interval) = .ok (.ok mid) ∧
    ConvertToNewInterval 0 (some mid) ((2 * 2 : Nat) * nineMinutes.interval) = .ok (.ok twice) ∧ once.candles = twice.candles ∧
    once.interval = twice.interval ∧ once.exchange = twice.exchange :=
  C131_two_steps 0 regular_nine (by decide +kernel) (by decide) (by decide) (by decide) (by decide)

/-- What the indicator shows after upscaling. -/
def afterUpscale {F : Type} [GoFloat F] (I : Indicator F) (e : Item F) (ni : Int) : Go (List I.D) :=
  match ConvertToNewInterval 0 (some e) ni with
  | .ok (.ok it) => I.data it
  | _ => .ok []

/-- The stochastic over two candles of two minutes, and over four of one minute; the last coarse candle (500/23 and not 100/7) is the
one that sees the left-over minute. -/
example : (afterUpscale (Stoch (2 : Nat)).toIndicator nineMinutes (120 * nsec)).map (fun d => d.map KD.k) =
      .ok [.fin 75, .fin (250 / 3), .fin 50, .fin (500 / 23)] ∧
    ((Stoch (4 : Nat)).data nineMinutes).map (fun d => d.map KD.k) =
      .ok [.fin 50, .fin 75, .fin 80, .fin (250 / 3), .fin (500 / 7), .fin 50, .fin (50 / 3), .fin (100 / 7), .fin (2100 / 23)] := by
  decide +kernel

/-- **C131 is false** for lines that read the closes inside the coarse candles: the upper Donchian line over one candle of two
minutes is its close, over two minutes the greater of two closes. -/
theorem C131_donchian_refuted :
    (afterUpscale (Donchian (1 : Nat)).toIndicator nineMinutes (120 * nsec)).map (fun d => (d.map Band.upper)[2]?) = .ok (some (.fin 6)) ∧
    ((Donchian (2 : Nat)).data nineMinutes).map (fun d => (d.map Band.upper)[5]?) = .ok (some (.fin 7)) := by
  decide +kernel

/-- Four minutes with volumes 2^53, 1, 1 and 1 in float64. -/
def fourMinutes64 : Item B64 where
  exchange := "x"
  interval := 60 * nsec
  symbol := ""
  code := ""
  candles := tab 4 fun j => { candle64 ⟨1, 1, 1, 1, [2 ^ 53, 1, 1, 1].getD j 0⟩ with timeUnix := 240 + 60 * j }

/-- The volumes after upscaling. -/
def convertedVolumes64 (e : Item B64) (ni : Int) : List (XF ℚ) :=
  match ConvertToNewInterval 0 (some e) ni with
  | .ok (.ok it) => it.candles.map fun c => c.volume.val
  | _ => []

/-- **C131 is false in float64**: the volume of the four minutes is 2^53 in one step and 2^53 + 2 in two. -/
theorem C131_float64_refuted : convertedVolumes64 fourMinutes64 (240 * nsec) = [.fin (2 ^ 53)] ∧
    (match ConvertToNewInterval 0 (some fourMinutes64) (120 * nsec) with
      | .ok (.ok mid) => convertedVolumes64 mid (240 * nsec)
      | _ => []) = [.fin (2 ^ 53 + 2)] := by
  decide +kernel

end Verif.Props
