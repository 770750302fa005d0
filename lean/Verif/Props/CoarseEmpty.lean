import Verif.Props.CoarseStart

/-!
# C155: the empty coarse candle at the end

`ConvertToNewInterval` counts the coarse candles from the length of the whole series, also when the first candles come before the rounded start and
are ignored (C154). If the ignored candles are more than the left-over ones, the count is one too many.
-/

set_option linter.unusedSectionVars false

namespace Verif.Props
open Verif Verif.Klines GoFloat

section Any
variable {F : Type} [GoFloat F]

/-- The main loop on a gap-free series aligned with the buckets, with one bucket too many: the left-over candles are ignored and the last bucket
stays as it is. -/
theorem convertLoop_spare (n r k : Nat) (s t0 : Int) (c : Nat → Candle F) (hs : 0 < s) (hr : 1 ≤ r)
    (hk : k = n / r) (hk1 : 1 ≤ k) (ht : ∀ x < n, (c x).timeUnix = t0 + x * s) (oldSec newSec : Int) :
    ∃ (t : Int) (b : Bool), goFor 0 (tab n c).length
        (tab (k + 1) fun j => some (Candle.zero (F := F) (t0 + (j * r : Nat) * s)), (0 : Int), false)
        (convertStep (tab n c) oldSec newSec r)
      = .ok (tab (k + 1) fun j => some (bucketRun oldSec newSec c (j * r) (Candle.zero (t0 + (j * r : Nat) * s))
          (if j = k then 0 else r)), t, b) := by
  have hkr : k * r ≤ n := by rw [hk]; exact Nat.div_mul_le_self n r
  have hkn : n < (k + 1) * r := by
    have h1 := Nat.div_add_mod n r
    have h2 := Nat.mod_lt n (show 0 < r by omega)
    rw [← hk, Nat.mul_comm] at h1
    rw [add_mul]; omega
  rw [tab_length]
  let cnt : Nat → Nat → Nat := fun j x => min (x - j * r) (if j = k then 0 else r)
  let z : Nat → Candle F := fun j => Candle.zero (t0 + (j * r : Nat) * s)
  rw [goFor_acc₀ (S := fun x => (tab (k + 1) fun j => some (bucketRun oldSec newSec c (j * r) (z j) (cnt j x)),
      ((min (x / r) (k - 1) : Nat) : Int), decide (k * r ≤ x ∧ k * r < n)))]
  · refine ⟨((min (n / r) (k - 1) : Nat) : Int), decide (k * r ≤ n ∧ k * r < n), ?_⟩
    congr 2
    refine tab_ext fun j hj => ?_
    congr 2
    simp only [cnt]
    split
    · omega
    · have h1 : (j + 1) * r ≤ k * r := Nat.mul_le_mul_right _ (by omega)
      have h2 : (j + 1) * r = j * r + r := by ring
      omega
  · have : 0 < k * r := Nat.mul_pos (by omega) (by omega)
    simp [cnt, bucketRun, z]
    omega
  · intro x hx
    by_cases hbr : k * r ≤ x
    · -- after the break nothing changes
      have f1 : decide (k * r ≤ x ∧ k * r < n) = true := decide_eq_true (by omega)
      have f2 : decide (k * r ≤ x + 1 ∧ k * r < n) = true := decide_eq_true (by omega)
      have hx1 : k ≤ x / r := (Nat.le_div_iff_mul_le (by omega)).2 hbr
      have hx2 : k ≤ (x + 1) / r := (Nat.le_div_iff_mul_le (by omega)).2 (by omega)
      simp only [f1, f2, convertStep]
      rw [pure_eq_ok]
      congr 2
      · refine tab_ext fun j hj => ?_
        congr 2
        simp only [cnt]
        split
        · omega
        · have h1 : (j + 1) * r ≤ k * r := Nat.mul_le_mul_right _ (by omega)
          have h2 : (j + 1) * r = j * r + r := by ring
          omega
      · congr 2
        omega
    · have f1 : decide (k * r ≤ x ∧ k * r < n) = false := decide_eq_false (by omega)
      have hxk : x / r < k := (Nat.div_lt_iff_lt_mul (by omega)).2 (by omega)
      set J := x / r with hJ
      have hmin : min J (k - 1) = J := by omega
      have hdm := Nat.div_add_mod x r
      have hml := Nat.mod_lt x (show 0 < r by omega)
      rw [← hJ, Nat.mul_comm] at hdm
      have hs1 : (J + 1) * r = J * r + r := by ring
      have hJk : (J + 1) * r ≤ k * r := Nat.mul_le_mul_right _ (by omega)
      have hcx : cnt J x = x - J * r := by
        simp only [cnt]
        rw [if_neg (by omega)]
        omega
      have hcx1 : cnt J (x + 1) = cnt J x + 1 := by
        rw [hcx]
        simp only [cnt]
        rw [if_neg (by omega)]
        omega
      have hother : ∀ j, j < k + 1 → j ≠ J → cnt j (x + 1) = cnt j x := by
        intro j hj hne
        simp only [cnt]
        rcases Nat.lt_or_gt_of_ne hne with h | h
        · have h1 : (j + 1) * r ≤ J * r := Nat.mul_le_mul_right _ h
          have h2 : (j + 1) * r = j * r + r := by ring
          rw [if_neg (by omega)]
          omega
        · have h1 : (J + 1) * r ≤ j * r := Nat.mul_le_mul_right _ h
          split <;> omega
      have htime : ∀ j k, (bucketRun oldSec newSec c (j * r) (z j) k).timeUnix = t0 + (j * r : Nat) * s :=
        fun j k => bucketRun_time _ _ _ _ _ _
      have hJm : J < k + 1 := by omega
      simp only [f1, hmin, convertStep]
      rw [idx_tab hx, ok_bind, idx_tab hJm, ok_bind]
      simp only [derefSlot, pure_eq_ok, ok_bind]
      rw [setAt_tab hJm, ok_bind]
      have hset : (tab (k + 1) fun j => if j = J then some (mergeCandle oldSec newSec (c x)
            (bucketRun oldSec newSec c (J * r) (z J) (cnt J x)))
          else some (bucketRun oldSec newSec c (j * r) (z j) (cnt j x)))
          = tab (k + 1) fun j => some (bucketRun oldSec newSec c (j * r) (z j) (cnt j (x + 1))) := by
        refine tab_ext fun j hj => ?_
        split
        · next h =>
          subst h
          rw [hcx1, bucketRun, hcx]
          congr 3
          rw [show J * r + (x - J * r) = x by omega]
        · next h => rw [hother j hj h]
      rw [hset]
      simp only [tab_length]
      have hnext : (x + 1) / r = if x + 1 = (J + 1) * r then J + 1 else J := by
        split
        · next h => rw [h]; exact Nat.mul_div_cancel _ (by omega)
        · next h => exact Nat.div_eq_of_lt_le (by omega) (by omega)
      by_cases hc : (x : Int) < (n : Int) - 1 ∧ (J : Int) < ((k + 1 : Nat) : Int) - 1
      · rw [if_pos hc]
        have hx1 : x + 1 < n := by omega
        have hJ1 : J + 1 < k + 1 := by omega
        rw [show ((x : Int) + 1) = ((x + 1 : Nat) : Int) by push_cast; rfl, idx_tab hx1, ok_bind,
          show ((J : Int) + 1) = ((J + 1 : Nat) : Int) by push_cast; rfl, idx_tab hJ1, ok_bind, derefSlot_some, ok_bind]
        rw [ht _ hx1, htime]
        have hiff : (t0 + ((x + 1 : Nat) : Int) * s = t0 + (((J + 1) * r : Nat) : Int) * s) ↔ x + 1 = (J + 1) * r := by
          constructor
          · intro h
            have : ((x + 1 : Nat) : Int) * s = (((J + 1) * r : Nat) : Int) * s := by omega
            have := Int.eq_of_mul_eq_mul_right (by omega) this
            exact_mod_cast this
          · intro h; rw [h]
        by_cases hb : x + 1 = (J + 1) * r
        · rw [if_pos (hiff.mpr hb), hnext, if_pos hb]
          by_cases hlast : J + 1 = k
          · have hkx : k * r = x + 1 := by rw [← hlast, hb]
            rw [add_mul, one_mul] at hkn
            rw [if_pos (by omega), show min (J + 1) (k - 1) = J by omega,
              show decide (k * r ≤ x + 1 ∧ k * r < n) = true from decide_eq_true (by omega)]
          · have h2 : (J + 2) * r ≤ k * r := Nat.mul_le_mul_right _ (by omega)
            have h3 : (J + 2) * r = (J + 1) * r + r := by ring
            rw [if_neg (by omega), show min (J + 1) (k - 1) = J + 1 by omega,
              show decide (k * r ≤ x + 1 ∧ k * r < n) = false from decide_eq_false (by omega)]
        · rw [if_neg (fun h => hb (hiff.mp h)), hnext, if_neg hb, hmin,
            show decide (k * r ≤ x + 1 ∧ k * r < n) = false from decide_eq_false ?_]
          rintro ⟨h1, -⟩
          have : k * r = x + 1 := by omega
          rcases Nat.lt_or_ge (J + 1) k with g | g
          · have h2 : (J + 2) * r ≤ k * r := Nat.mul_le_mul_right _ (by omega)
            have h3 : (J + 2) * r = (J + 1) * r + r := by ring
            omega
          · rw [show k = J + 1 by omega] at this
            exact hb this.symm
      · rw [if_neg hc]
        have hxn : x + 1 = n := by omega
        have hk1' : J + 1 = k := by
          by_contra hne
          have h2 : (J + 2) * r ≤ k * r := Nat.mul_le_mul_right _ (by omega)
          have h3 : (J + 2) * r = (J + 1) * r + r := by ring
          omega
        have hkx : k * r = x + 1 := by
          rw [hk1'] at hs1 hJk
          omega
        rw [hnext, if_pos (by rw [hk1', hkx]), show min (J + 1) (k - 1) = J by omega,
          show decide (k * r ≤ x + 1 ∧ k * r < n) = false from decide_eq_false (by omega)]

/-- A candle before the first coarse candle changes nothing. -/
theorem convertStep_before (n m r d : Nat) (cd : Nat → Candle F) (s B : Int) (hs : 0 < s) (hr : 1 ≤ r) (hm : 1 ≤ m) (k : Nat) (hkd : k < d)
    (hd : d ≤ n) (htime : ∀ x, x < n → (cd x).timeUnix = B - d * s + x * s) :
    convertStep (tab n cd) s (r * s) r (k : Int) (tab m fun j => some (Candle.zero (F := F) (B + (j * r : Nat) * s)), (0 : Int), false) =
      .ok (tab m fun j => some (Candle.zero (F := F) (B + (j * r : Nat) * s)), (0 : Int), false) := by
  have hkd : (k : Int) * s + s ≤ d * s := by
    have : ((k + 1 : Nat) : Int) * s ≤ (d : Int) * s := Int.mul_le_mul_of_nonneg_right (by omega) (by omega)
    push_cast at this
    linarith
  have hrs : 0 < (r : Int) * s := Int.mul_pos (by omega) hs
  simp only [convertStep]
  rw [idx_tab (show k < n by omega), ok_bind]
  have hz : idx (tab m fun j => some (Candle.zero (F := F) (B + (j * r : Nat) * s))) 0 = .ok (some (Candle.zero B)) := by
    have := idx_tab (x := fun j => some (Candle.zero (F := F) (B + (j * r : Nat) * s))) (i := 0) hm
    simpa using this
  have hmerge : mergeCandle s (r * s) (cd k) (Candle.zero B) = Candle.zero B := by
    have t1 := htime k (by omega)
    have n1 : ¬ (cd k).timeUnix = B := by omega
    have n2 : ¬ (cd k).timeUnix > B := by omega
    have n3 : ¬ (cd k).timeUnix + s = B + r * s := by omega
    unfold mergeCandle
    simp only [Candle.zero, n1, n2, n3, false_and, false_or, if_false]
  rw [hz, ok_bind, derefSlot_some, ok_bind, hmerge]
  have hset : setAt (tab m fun j => some (Candle.zero (F := F) (B + (j * r : Nat) * s))) (0 : Int) (some (Candle.zero B)) =
      .ok (tab m fun j => some (Candle.zero (F := F) (B + (j * r : Nat) * s))) := by
    have := setAt_tab (x := fun j => some (Candle.zero (F := F) (B + (j * r : Nat) * s))) (i := 0) (v := some (Candle.zero B)) hm
    rw [Nat.cast_zero] at this
    rw [this]
    congr 1
    refine tab_ext fun j _ => ?_
    split
    · next h => subst h; simp
    · rfl
  rw [hset, ok_bind]
  simp only [tab_length]
  split
  · next hc =>
    rw [show ((k : Int) + 1) = ((k + 1 : Nat) : Int) by push_cast; rfl, idx_tab (show k + 1 < n by omega), ok_bind,
      show ((0 : Int) + 1) = ((1 : Nat) : Int) by rfl, idx_tab (show 1 < m by omega), ok_bind, derefSlot_some, ok_bind, if_neg]
    · rfl
    · rw [htime (k + 1) (by omega)]
      simp only [Candle.zero]
      push_cast
      intro h
      rw [one_mul, add_mul, one_mul] at h
      omega
  · rfl

/-- **C155.** A gap-free series whose start is `d <= r/2` candles before a multiple of the new interval, any numbers. If fewer than `d` candles are
left over, and a whole coarse candle is there after the first `d` ones, `ConvertToNewInterval` gives what it gives for the whole coarse candles
alone - without the first `d` candles and without the incomplete rest -, followed by a candle with all numbers 0. -/
theorem C155_empty (now : Int) (e : Item F) (n r d : Nat) (hn : e.candles.length = n) (hi : 0 < e.interval) (hr : 2 ≤ r) (hrn : d + r ≤ n)
    (hd : 1 ≤ d) (hdr : 2 * d ≤ r) (hrest : n % r < d) (t0 : Int) (ht0 : 0 < t0)
    (hgap : ∀ (x : Nat) (b : Candle F), e.candles[x]? = some b → ofUnix b.timeUnix = ofUnix t0 + x * e.interval)
    (halign : r * e.interval ∣ ofUnix t0 + d * e.interval + zeroOffset) :
    ∃ (it : Item F) (T : Int),
      ConvertToNewInterval now (some { e with candles := (e.candles.drop d).take ((n - d) / r * r) }) (r * e.interval) = .ok (.ok it) ∧
      it.candles.length = (n - d) / r ∧
      ofUnix T = ofUnix t0 + d * e.interval + ((n - d) / r : Nat) * (r * e.interval) ∧
      ConvertToNewInterval now (some e) (r * e.interval) = .ok (.ok { it with candles := it.candles ++ [Candle.zero T] }) := by
  obtain ⟨cd, hcd⟩ := exists_tabCandles e.candles
  rw [hn] at hcd
  have hnp : (0 : Int) < nsec := by decide
  have hgap' : ∀ x, x < n → ofUnix (cd x).timeUnix = ofUnix t0 + x * e.interval :=
    fun x hx => hgap x _ (by rw [hcd, tab_getElem?_lt hx])
  obtain ⟨s, hsv⟩ : ∃ s : Int, e.interval = s * nsec := by
    have h1 := hgap' 1 (by omega)
    refine ⟨(cd 1).timeUnix - t0, ?_⟩
    unfold ofUnix at h1
    rw [sub_mul, h1]; simp
  have hs : 0 < s := by
    by_contra hneg
    have := Int.mul_le_mul_of_nonneg_right (show s ≤ 0 by omega) (le_of_lt hnp)
    omega
  have htime : ∀ x, x < n → (cd x).timeUnix = t0 + x * s := by
    intro x hx
    have h1 := hgap' x hx
    unfold ofUnix at h1
    rw [hsv] at h1
    refine Int.eq_of_mul_eq_mul_right (a := nsec) (by omega) ?_
    rw [h1]; ring
  have hup : ofUnix t0 + d * e.interval = ofUnix (t0 + d * s) := by unfold ofUnix; rw [hsv]; ring
  have hds : 0 < (d : Int) * s := Int.mul_pos (by omega) hs
  set k := (n - d) / r with hk
  have hk1 : 1 ≤ k := Nat.div_pos (by omega) (by omega)
  have hkr : k * r ≤ n - d := Nat.div_mul_le_self _ _
  have hkn : n - d < (k + 1) * r := by
    have h1 := Nat.div_add_mod (n - d) r
    have h2 := Nat.mod_lt (n - d) (show 0 < r by omega)
    rw [← hk, Nat.mul_comm] at h1
    rw [add_mul]; omega
  have hsame : n / r = k + 1 := by
    have h1 := Nat.div_add_mod n r
    rw [Nat.mul_comm] at h1
    have hlt : n / r * r < (k + 2) * r := by
      have : (k + 2) * r = (k + 1) * r + r := by ring
      omega
    have hgt : k * r < n / r * r := by omega
    have := Nat.lt_of_mul_lt_mul_right hlt
    have := Nat.lt_of_mul_lt_mul_right hgt
    omega
  have hr1 : r ≤ k * r := Nat.le_mul_of_pos_left _ hk1
  have hcut : (e.candles.drop d).take (k * r) = tab (k * r) fun x => cd (d + x) := by
    rw [hcd]
    refine List.ext_getElem? fun x => ?_
    rw [List.getElem?_take, List.getElem?_drop, tab_getElem?, tab_getElem?]
    by_cases g : x < k * r
    · rw [if_pos g, if_pos (by omega), if_pos g]
    · rw [if_neg g, if_neg g]
  have htime' : ∀ x, x < n - d → (cd (d + x)).timeUnix = t0 + d * s + x * s := by
    intro x hx
    rw [htime _ (by omega)]; push_cast; ring
  have hA := convert_stamped now { e with candles := (e.candles.drop d).take (k * r) } (k * r) r (fun x => cd (d + x)) s (t0 + d * s) (t0 + d * s)
    hcut hs hsv hr hr1 (by omega) (fun x hx => htime' x (by omega))
    (by dsimp only; rw [roundT_aligned (Int.mul_pos (by omega) hi) (by rw [← hup]; exact halign)])
  dsimp only at hA
  rw [Nat.mul_div_cancel _ (show 0 < r by omega)] at hA
  obtain ⟨t1, hl1⟩ := convertLoop_aligned (k * r) r k s (t0 + d * s) (fun x => cd (d + x)) hs (by omega)
    (by rw [Nat.mul_div_cancel _ (show 0 < r by omega)]) hk1 (fun x hx => htime' x (by omega)) s (r * s)
  rw [hl1, ok_bind] at hA
  dsimp only at hA
  rw [allSlots_tab] at hA
  dsimp only at hA
  have hB := convert_stamped now e n r cd s t0 (t0 + d * s) hcd hs hsv hr (by omega) ht0 htime (by rw [roundT_up hi hd hdr halign, hup])
  obtain ⟨t2, b2, hl2⟩ := convertLoop_spare (n - d) r k s (t0 + d * s) (fun x => cd (d + x)) hs (by omega) hk hk1 htime' s (r * s)
  rw [hsame, convertLoop_skip n d cd s (r * s) r (by omega) _ (fun j hj => convertStep_before n (k + 1) r d cd s (t0 + d * s) hs (by omega)
    (by omega) j hj (by omega) (fun x hx => by rw [htime x hx]; ring)), hl2, ok_bind] at hB
  dsimp only at hB
  rw [allSlots_tab] at hB
  dsimp only at hB
  refine ⟨_, t0 + d * s + (k * r : Nat) * s, hA, by simp [newItem], ?_, ?_⟩
  · rw [hup, hsv]
    unfold ofUnix
    push_cast
    ring
  · rw [hB]
    congr 2
    unfold newItem
    dsimp only
    congr 1
    rw [tab_succ, if_pos rfl]
    congr 1
    refine tab_ext fun j hj => ?_
    rw [if_neg (by omega)]
    split
    · next h =>
      congr 1
      rw [← h, add_mul, one_mul]
      omega
    · rfl

/-- The main loop with a single bucket. -/
theorem convertLoop_single (n : Nat) (c : Nat → Candle F) (z : Candle F) (a b r : Int) :
    goFor 0 (tab n c).length (tab 1 fun _ => some z, (0 : Int), false) (convertStep (tab n c) a b r)
      = .ok (tab 1 fun _ => some (bucketRun a b c 0 z n), (0 : Int), false) := by
  rw [tab_length]
  rw [goFor_acc₀ (S := fun x => (tab 1 fun _ => some (bucketRun a b c 0 z x), (0 : Int), false))]
  · rfl
  · intro x hx
    simp only [convertStep]
    rw [idx_tab hx, ok_bind]
    have h0 := idx_tab (x := fun _ : Nat => some (bucketRun a b c 0 z x)) (n := 1) (i := 0) (by omega)
    rw [Nat.cast_zero] at h0
    rw [h0, ok_bind, derefSlot_some, ok_bind]
    have h1 := setAt_tab (x := fun _ : Nat => some (bucketRun a b c 0 z x)) (n := 1) (i := 0) (v := some (mergeCandle a b (c x) (bucketRun a b c 0 z x)))
      (by omega)
    rw [Nat.cast_zero] at h1
    rw [h1, ok_bind]
    simp only [tab_length]
    rw [if_neg (by omega), pure_eq_ok]
    congr 2
    refine tab_ext fun j hj => ?_
    rw [if_pos (by omega), bucketRun, Nat.zero_add]

/-- Without the candle that ends it a coarse candle gets no close. -/
theorem bucketRun_noClose (a b : Int) (c : Nat → Candle F) (lo k : Nat) (init : Candle F)
    (h : ∀ x, x < k → (c (lo + x)).timeUnix + a ≠ init.timeUnix + b) :
    (bucketRun a b c lo init k).close = init.close ∧ (bucketRun a b c lo init k).changePercent = init.changePercent ∧
      (bucketRun a b c lo init k).isBull = init.isBull := by
  induction k with
  | zero => exact ⟨rfl, rfl, rfl⟩
  | succ k ih =>
    have h1 := ih fun x hx => h x (by omega)
    have h2 := h k (by omega)
    rw [← bucketRun_time a b c lo init k] at h2
    rw [bucketRun]
    generalize bucketRun a b c lo init k = u at h1 h2
    rw [← h1.1, ← h1.2.1, ← h1.2.2]
    unfold mergeCandle
    simp only
    split_ifs <;> exact ⟨rfl, rfl, rfl⟩

/-- **C155 (incomplete).** The same start, and no whole coarse candle after the first `d` candles: instead of an error there is one coarse candle, without
a close and without a change. -/
theorem C155_incomplete (now : Int) (e : Item F) (n r d : Nat) (hn : e.candles.length = n) (hi : 0 < e.interval) (hr : 2 ≤ r) (hrn : r ≤ n)
    (hnd : n < d + r) (hdr : 2 * d ≤ r) (t0 : Int) (ht0 : 0 < t0)
    (hgap : ∀ (x : Nat) (b : Candle F), e.candles[x]? = some b → ofUnix b.timeUnix = ofUnix t0 + x * e.interval)
    (halign : r * e.interval ∣ ofUnix t0 + d * e.interval + zeroOffset) :
    ∃ (it : Item F) (b : Candle F), ConvertToNewInterval now (some e) (r * e.interval) = .ok (.ok it) ∧ it.candles = [b] ∧
      ofUnix b.timeUnix = ofUnix t0 + d * e.interval ∧ b.close = fl 0 ∧ b.changePercent = fl 0 ∧ b.isBull = false := by
  obtain ⟨cd, hcd⟩ := exists_tabCandles e.candles
  rw [hn] at hcd
  have hd : 1 ≤ d := by omega
  have hnp : (0 : Int) < nsec := by decide
  have hgap' : ∀ x, x < n → ofUnix (cd x).timeUnix = ofUnix t0 + x * e.interval :=
    fun x hx => hgap x _ (by rw [hcd, tab_getElem?_lt hx])
  obtain ⟨s, hsv⟩ : ∃ s : Int, e.interval = s * nsec := by
    have h1 := hgap' 1 (by omega)
    refine ⟨(cd 1).timeUnix - t0, ?_⟩
    unfold ofUnix at h1
    rw [sub_mul, h1]; simp
  have hs : 0 < s := by
    by_contra hneg
    have := Int.mul_le_mul_of_nonneg_right (show s ≤ 0 by omega) (le_of_lt hnp)
    omega
  have htime : ∀ x, x < n → (cd x).timeUnix = t0 + x * s := by
    intro x hx
    have h1 := hgap' x hx
    unfold ofUnix at h1
    rw [hsv] at h1
    refine Int.eq_of_mul_eq_mul_right (a := nsec) (by omega) ?_
    rw [h1]; ring
  have hup : ofUnix t0 + d * e.interval = ofUnix (t0 + d * s) := by unfold ofUnix; rw [hsv]; ring
  have hone : n / r = 1 := Nat.div_eq_of_lt_le (by omega) (by omega)
  have hA := convert_stamped now e n r cd s t0 (t0 + d * s) hcd hs hsv hr hrn ht0 htime (by rw [roundT_up hi hd hdr halign, hup])
  have hz : (tab 1 fun j => some (Candle.zero (F := F) (t0 + d * s + (j * r : Nat) * s))) = tab 1 fun _ => some (Candle.zero (t0 + d * s)) :=
    tab_ext fun j hj => by
      obtain rfl : j = 0 := by omega
      simp
  rw [hone, hz, convertLoop_single, ok_bind] at hA
  dsimp only at hA
  rw [allSlots_tab] at hA
  have hc := bucketRun_noClose s (r * s) cd 0 n (Candle.zero (t0 + d * s)) (fun x hx => by
    rw [Nat.zero_add, htime x hx]
    simp only [Candle.zero]
    have : ((x + 1 : Nat) : Int) * s < ((d + r : Nat) : Int) * s := Int.mul_lt_mul_of_pos_right (by omega) hs
    push_cast at this
    rw [add_mul, add_mul, one_mul] at this
    omega)
  exact ⟨_, _, hA, rfl, by rw [bucketRun_time, hup]; rfl, hc⟩

/-- An empty candle at the start of a coarse candle changes nothing. -/
theorem convertStep_empty (hz : (fl 0 +. fl 0 : F) = fl 0) (n m r d : Nat) (cd : Nat → Candle F) (s B : Int) (hs : 0 < s) (hdr : d < r) (hm : 1 ≤ m)
    (k : Nat) (hk : k < d) (hd : d ≤ n) (hempty : ∀ x, x < d → cd x = Candle.zero (B + x * s))
    (htime : ∀ x, x < n → (cd x).timeUnix = B + x * s) :
    convertStep (tab n cd) s (r * s) r (k : Int) (tab m fun j => some (Candle.zero (F := F) (B + (j * r : Nat) * s)), (0 : Int), false) =
      .ok (tab m fun j => some (Candle.zero (F := F) (B + (j * r : Nat) * s)), (0 : Int), false) := by
  have hkr : ((k : Int) + 1) * s < r * s := Int.mul_lt_mul_of_pos_right (by omega) hs
  have hks : 0 ≤ (k : Int) * s := Int.mul_nonneg (by omega) (by omega)
  rw [add_mul, one_mul] at hkr
  simp only [convertStep]
  rw [idx_tab (show k < n by omega), ok_bind]
  have hz0 : idx (tab m fun j => some (Candle.zero (F := F) (B + (j * r : Nat) * s))) 0 = .ok (some (Candle.zero B)) := by
    have := idx_tab (x := fun j => some (Candle.zero (F := F) (B + (j * r : Nat) * s))) (i := 0) hm
    simpa using this
  rw [hz0, ok_bind, derefSlot_some, ok_bind, hempty k hk, mergeCandle_empty hz _ _ _ _ (by omega)]
  have hset : setAt (tab m fun j => some (Candle.zero (F := F) (B + (j * r : Nat) * s))) (0 : Int) (some (Candle.zero B)) =
      .ok (tab m fun j => some (Candle.zero (F := F) (B + (j * r : Nat) * s))) := by
    have := setAt_tab (x := fun j => some (Candle.zero (F := F) (B + (j * r : Nat) * s))) (i := 0) (v := some (Candle.zero B)) hm
    rw [Nat.cast_zero] at this
    rw [this]
    congr 1
    refine tab_ext fun j _ => ?_
    split
    · next h => subst h; simp
    · rfl
  rw [hset, ok_bind]
  simp only [tab_length]
  split
  · next hc =>
    rw [show ((k : Int) + 1) = ((k + 1 : Nat) : Int) by push_cast; rfl, idx_tab (show k + 1 < n by omega), ok_bind,
      show ((0 : Int) + 1) = ((1 : Nat) : Int) by rfl, idx_tab (show 1 < m by omega), ok_bind, derefSlot_some, ok_bind, if_neg]
    · rfl
    · rw [htime (k + 1) (by omega)]
      simp only [Candle.zero]
      push_cast
      intro h
      rw [one_mul, add_mul, one_mul] at h
      omega
  · rfl

/-- A candle after the end of the coarse candle changes its high and low only. -/
theorem mergeCandle_after (a b : Int) (ha : 0 < a) (hb : 0 < b) (c t : Candle F) (h : t.timeUnix + b ≤ c.timeUnix) :
    { mergeCandle a b c t with high := t.high, low := t.low } = t := by
  have n1 : ¬ c.timeUnix = t.timeUnix := by omega
  have n2 : ¬ c.timeUnix < t.timeUnix + b := by omega
  have n3 : ¬ c.timeUnix + a = t.timeUnix + b := by omega
  unfold mergeCandle
  simp only [n1, false_and, false_or, if_false]
  split_ifs <;> first | rfl | (exfalso; simp_all; omega)

theorem bucketRun_after (a b : Int) (ha : 0 < a) (hb : 0 < b) (c : Nat → Candle F) (lo k : Nat) (init : Candle F) (q : Nat)
    (h : ∀ x, k ≤ x → x < k + q → init.timeUnix + b ≤ (c (lo + x)).timeUnix) :
    { bucketRun a b c lo init (k + q) with high := (bucketRun a b c lo init k).high, low := (bucketRun a b c lo init k).low } =
      bucketRun a b c lo init k := by
  induction q with
  | zero => rfl
  | succ q ih =>
    have h1 := ih fun x h1 h2 => h x h1 (by omega)
    have h2 := mergeCandle_after a b ha hb (c (lo + (k + q))) (bucketRun a b c lo init (k + q))
      (by rw [bucketRun_time]; exact h _ (by omega) (by omega))
    rw [← Nat.add_assoc, bucketRun]
    generalize mergeCandle a b (c (lo + (k + q))) (bucketRun a b c lo init (k + q)) = u at h2
    rw [← h2] at h1
    exact h1

/-- **C155 (one candle too few).** A gap-free series whose start is `d < r/2` candles after a multiple of the new interval, numbers with `0 + 0 = 0`:
if the left-over candles and `d` empty ones in front would make another coarse candle, that one is missing. The others are those of the series with
the empty candles in front, but for the high and the low of the last. -/
theorem C155_missing (hz : (fl 0 +. fl 0 : F) = fl 0) (now : Int) (e : Item F) (n r d : Nat) (hn : e.candles.length = n) (hi : 0 < e.interval)
    (hr : 2 ≤ r) (hrn : r ≤ n) (hdr : 2 * d < r) (hrest : r ≤ n % r + d) (t0 : Int) (ht0 : 0 < ofUnix t0 - d * e.interval)
    (hgap : ∀ (x : Nat) (b : Candle F), e.candles[x]? = some b → ofUnix b.timeUnix = ofUnix t0 + x * e.interval)
    (halign : r * e.interval ∣ ofUnix t0 - d * e.interval + zeroOffset) :
    ∃ it it' : Item F,
      ConvertToNewInterval now (some e) (r * e.interval) = .ok (.ok it) ∧
      ConvertToNewInterval now (some { e with
        candles := (tab d fun x => Candle.zero (t0 - (d - x : Nat) * unix e.interval)) ++ e.candles }) (r * e.interval) = .ok (.ok it') ∧
      it.candles.length = n / r ∧ it'.candles.length = n / r + 1 ∧
      ∀ (j : Nat) (b b' : Candle F), it.candles[j]? = some b → it'.candles[j]? = some b' →
        (j + 1 < n / r → b = b') ∧ { b with high := b'.high, low := b'.low } = b' := by
  obtain ⟨cd, hcd⟩ := exists_tabCandles e.candles
  rw [hn] at hcd
  have hnp : (0 : Int) < nsec := by decide
  have hgap' : ∀ x, x < n → ofUnix (cd x).timeUnix = ofUnix t0 + x * e.interval :=
    fun x hx => hgap x _ (by rw [hcd, tab_getElem?_lt hx])
  obtain ⟨s, hsv⟩ : ∃ s : Int, e.interval = s * nsec := by
    have h1 := hgap' 1 (by omega)
    refine ⟨(cd 1).timeUnix - t0, ?_⟩
    unfold ofUnix at h1
    rw [sub_mul, h1]; simp
  have hs : 0 < s := by
    by_contra hneg
    have := Int.mul_le_mul_of_nonneg_right (show s ≤ 0 by omega) (le_of_lt hnp)
    omega
  have htime : ∀ x, x < n → (cd x).timeUnix = t0 + x * s := by
    intro x hx
    have h1 := hgap' x hx
    unfold ofUnix at h1
    rw [hsv] at h1
    refine Int.eq_of_mul_eq_mul_right (a := nsec) (by omega) ?_
    rw [h1]; ring
  have hunix : unix e.interval = s := by
    unfold unix
    rw [hsv, Int.mul_ediv_cancel _ (by omega)]
  have hdn : ofUnix t0 - d * e.interval = ofUnix (t0 - d * s) := by unfold ofUnix; rw [hsv]; ring
  have hds : 0 ≤ (d : Int) * s := Int.mul_nonneg (by omega) (by omega)
  have hB0 : 0 < t0 - d * s := by
    rw [hdn] at ht0
    unfold ofUnix at ht0
    by_contra hneg
    have := Int.mul_le_mul_of_nonneg_right (show t0 - d * s ≤ 0 by omega) (le_of_lt hnp)
    omega
  have hdm := Nat.div_add_mod n r
  rw [Nat.mul_comm] at hdm
  have hml := Nat.mod_lt n (show 0 < r by omega)
  have hsame : (n + d) / r = n / r + 1 := by
    have e1 : (n / r + 1) * r = n / r * r + r := by ring
    refine Nat.div_eq_of_lt_le (by omega) ?_
    rw [Nat.succ_mul]; omega
  set cd' : Nat → Candle F := fun x => if x < d then Candle.zero (t0 - (d - x : Nat) * s) else cd (x - d) with hcd'
  have hpad : ((tab d fun x => Candle.zero (t0 - (d - x : Nat) * unix e.interval)) ++ e.candles) = tab (n + d) cd' := by
    rw [hcd, hunix]
    refine List.ext_getElem? fun x => ?_
    rcases Nat.lt_or_ge x d with g | g
    · rw [List.getElem?_append_left (by rw [tab_length]; exact g), tab_getElem?_lt g, tab_getElem?_lt (by omega), hcd']
      simp only [if_pos g]
    · rw [List.getElem?_append_right (by rw [tab_length]; exact g), tab_length, tab_getElem?, tab_getElem?, hcd']
      by_cases g' : x - d < n
      · rw [if_pos g', if_pos (by omega)]
        simp only [if_neg (show ¬ x < d by omega)]
      · rw [if_neg g', if_neg (by omega)]
  have hempty : ∀ x, x < d → cd' x = Candle.zero (t0 - d * s + x * s) := by
    intro x hx
    rw [hcd']
    simp only [if_pos hx]
    rw [Nat.cast_sub (by omega)]
    congr 1
    ring
  have htime' : ∀ x, x < n + d → (cd' x).timeUnix = t0 - d * s + x * s := by
    intro x hx
    by_cases g : x < d
    · rw [hempty x g]; rfl
    · rw [hcd']
      simp only [if_neg g]
      rw [htime _ (by omega), Nat.cast_sub (by omega)]
      ring
  have hm1 : 1 ≤ n / r := Nat.div_pos hrn (by omega)
  have hA := convert_stamped now e n r cd s t0 (t0 - d * s) hcd hs hsv hr hrn (by omega) htime (by rw [roundT_down hi hdr halign, hdn])
  have hB := convert_stamped now { e with candles := (tab d fun x => Candle.zero (t0 - (d - x : Nat) * unix e.interval)) ++ e.candles }
    (n + d) r cd' s (t0 - d * s) (t0 - d * s) hpad hs hsv hr (by omega) hB0 htime'
    (by dsimp only; rw [roundT_aligned (Int.mul_pos (by omega) hi) (by rw [← hdn]; exact halign)])
  dsimp only at hB
  have hcut : (tab (n + d - d) fun x => cd' (d + x)) = tab n cd := by
    rw [Nat.add_sub_cancel]
    refine tab_ext fun x _ => ?_
    rw [hcd']
    simp only [if_neg (show ¬ d + x < d by omega), Nat.add_sub_cancel_left]
  have hskip := convertLoop_skip (n + d) d cd' s (r * s) r (by omega) _ (fun j hj => convertStep_empty hz (n + d) (n / r) r d cd' s (t0 - d * s) hs
    (by omega) hm1 j hj (by omega) hempty htime')
  rw [hcut] at hskip
  obtain ⟨t1, hl1⟩ := convertLoop_upTo (n + d) r (n / r) s (t0 - d * s) cd' hs (by omega) (by omega) hm1 htime' s (r * s)
  obtain ⟨t2, hl2⟩ := convertLoop_aligned (n + d) r (n / r + 1) s (t0 - d * s) cd' hs (by omega) hsame.symm (by omega) htime' s (r * s)
  rw [← hskip, hl1, ok_bind] at hA
  rw [hsame, hl2, ok_bind] at hB
  dsimp only at hA hB
  rw [allSlots_tab] at hA hB
  dsimp only at hA hB
  refine ⟨_, _, hA, hB, by simp [newItem], by simp [newItem], ?_⟩
  intro j b b' hb hb'
  simp only [newItem] at hb hb'
  have hj : j < n / r := by
    by_contra hc
    rw [tab_getElem?, if_neg hc] at hb
    cases hb
  rw [tab_getElem?_lt hj] at hb
  rw [tab_getElem?_lt (show j < n / r + 1 by omega), if_neg (by omega)] at hb'
  cases hb
  cases hb'
  by_cases hl : j + 1 = n / r
  · rw [if_pos hl]
    refine ⟨fun h => by omega, ?_⟩
    have e1 : (j + 1) * r = j * r + r := by ring
    rw [hl] at e1
    have := bucketRun_after s (r * s) hs (Int.mul_pos (by omega) hs) cd' (j * r) r (Candle.zero (t0 - d * s + (j * r : Nat) * s))
      (n + d - j * r - r) (fun x h1 h2 => by
        rw [htime' _ (by omega)]
        have : ((j * r + r : Nat) : Int) * s ≤ ((j * r + x : Nat) : Int) * s := Int.mul_le_mul_of_nonneg_right (by omega) (by omega)
        simp only [Candle.zero]
        rw [Nat.cast_add (j * r) r, add_mul] at this
        omega)
    rw [show r + (n + d - j * r - r) = n + d - j * r by omega] at this
    exact this
  · rw [if_neg hl]
    exact ⟨fun _ => rfl, rfl⟩

end Any

/-- Eight minutes from 360 on into four-minute candles: those of the minutes 480 to 660, and an empty one at 720. -/
example : ∃ (it : Item (XF ℚ)) (T : Int),
    ConvertToNewInterval 0 (some { minutesFrom 2 with candles := ((minutesFrom 2).candles.drop 2).take 4 }) ((4 : Nat) * (60 * nsec)) = .ok (.ok it) ∧
    it.candles.length = 1 ∧ ofUnix T = ofUnix 360 + (2 : Nat) * (60 * nsec) + (1 : Nat) * ((4 : Nat) * (60 * nsec)) ∧
    ConvertToNewInterval 0 (some (minutesFrom 2)) ((4 : Nat) * (60 * nsec)) = .ok (.ok { it with candles := it.candles ++ [Candle.zero T] }) :=
  C155_empty 0 (minutesFrom 2) 8 4 2 rfl (by decide) (by decide) (by decide) (by decide) (by decide) (by decide) 360 (by decide)
    (by
      intro x b hx
      match x, hx with
      | 0, hx | 1, hx | 2, hx | 3, hx | 4, hx | 5, hx | 6, hx | 7, hx => cases hx; rfl)
    (by decide)

/-- The five minutes 360 to 600 into four-minute candles: one candle at 480, without a close. -/
example : ∃ (it : Item (XF ℚ)) (b : Candle (XF ℚ)),
    ConvertToNewInterval 0 (some { minutesFrom 2 with candles := (minutesFrom 2).candles.take 5 }) ((4 : Nat) * (60 * nsec)) = .ok (.ok it) ∧
    it.candles = [b] ∧ ofUnix b.timeUnix = ofUnix 360 + (2 : Nat) * (60 * nsec) ∧ b.close = fl 0 ∧ b.changePercent = fl 0 ∧ b.isBull = false :=
  C155_incomplete 0 { minutesFrom 2 with candles := (minutesFrom 2).candles.take 5 } 5 4 2 rfl (by decide) (by decide) (by decide) (by decide)
    (by decide) 360 (by decide)
    (by
      intro x b hx
      match x, hx with
      | 0, hx | 1, hx | 2, hx | 3, hx | 4, hx => cases hx; rfl)
    (by decide)

/-- The seven minutes 300 to 660 into four-minute candles: the candle 480 to 660 is missing. -/
example : ∃ it it' : Item (XF ℚ),
    ConvertToNewInterval 0 (some { minutesFrom 1 with candles := (minutesFrom 1).candles.take 7 }) ((4 : Nat) * (60 * nsec)) = .ok (.ok it) ∧
    ConvertToNewInterval 0 (some { minutesFrom 1 with candles := [Candle.zero 240] ++ (minutesFrom 1).candles.take 7 })
      ((4 : Nat) * (60 * nsec)) = .ok (.ok it') ∧
    it.candles.length = 1 ∧ it'.candles.length = 2 ∧
    ∀ (j : Nat) (b b' : Candle (XF ℚ)), it.candles[j]? = some b → it'.candles[j]? = some b' →
      (j + 1 < 1 → b = b') ∧ { b with high := b'.high, low := b'.low } = b' :=
  C155_missing (by rw [XF.fl_fin, XF.add_fin]; simp) 0 { minutesFrom 1 with candles := (minutesFrom 1).candles.take 7 } 7 4 1 rfl (by decide)
    (by decide) (by decide) (by decide) (by decide) 300 (by decide)
    (by
      intro x b hx
      match x, hx with
      | 0, hx | 1, hx | 2, hx | 3, hx | 4, hx | 5, hx | 6, hx => cases hx; rfl)
    (by decide)

/-- Times, highs and lows of the seven minutes 300 to 660 upscaled by 4, without and with an empty candle in front. -/
def sevenMinutes (front : List (Candle (XF ℚ))) : List (Int × List (XF ℚ)) :=
  match ConvertToNewInterval 0 (some { minutesFrom 1 with candles := front ++ (minutesFrom 1).candles.take 7 }) (4 * (60 * nsec)) with
  | .ok (.ok it) => it.candles.map fun b => (b.timeUnix, [b.high, b.low])
  | _ => []

/-- **That the high and low of a coarse candle come from its own candles is false**: the candle 240 to 420 of these minutes gets the high 9 of the minute
480, although three whole minutes of its own are there with highs up to 7. The candle 480 to 660, whose four minutes are all there, is missing. -/
theorem C155_high_refuted :
    (minutesFrom 1).candles.map (fun b => (b.timeUnix, b.high)) = [(300, .fin 4), (360, .fin 6), (420, .fin 7), (480, .fin 9), (540, .fin 8),
      (600, .fin 6), (660, .fin 5), (720, .fin 10), (780, .fin 4)] ∧
    sevenMinutes [] = [(240, [.fin 9, .fin 2])] ∧
    sevenMinutes [Candle.zero 240] = [(240, [.fin 7, .fin 2]), (480, [.fin 9, .fin 2])] := by
  decide +kernel

end Verif.Props
