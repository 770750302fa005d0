import Verif.Props.CoarseParts

/-!
# C154: upscaling a series that starts between two coarse candles

C15 and C151-C153 are about series that start on a multiple of the new interval. `ConvertToNewInterval` rounds the start of any other series
to the nearest multiple (kline.go:78-97). Both cases are reduced to a series that starts on a multiple: rounding up ignores the candles before
it, rounding down does as if the missing candles were padded.
-/

set_option linter.unusedSectionVars false

namespace Verif.Props
open Verif Verif.Klines GoFloat XF

section Any
variable {F : Type} [GoFloat F]

theorem goForFrom_skip {σ : Type} {body : Int → σ → Go σ} {s : σ} (i : Int) (d : Nat) (h : ∀ k < d, body (i + k) s = .ok s) :
    goForFrom i d s body = .ok s := by
  induction d generalizing i with
  | zero => rfl
  | succ d ih =>
    have h0 := h 0 (by omega)
    rw [Nat.cast_zero, Int.add_zero] at h0
    rw [goForFrom_ok h0]
    refine ih _ fun k hk => ?_
    have := h (k + 1) (by omega)
    rw [show i + 1 + (k : Int) = i + ((k + 1 : Nat) : Int) by push_cast; ring]
    exact this

theorem goForFrom_shift {σ : Type} {body body' : Int → σ → Go σ} (d i n : Nat) (s : σ)
    (h : ∀ (k : Nat) s, i ≤ k → k < i + n → body ((d + k : Nat) : Int) s = body' (k : Int) s) :
    goForFrom ((d + i : Nat) : Int) n s body = goForFrom (i : Int) n s body' := by
  induction n generalizing i s with
  | zero => rfl
  | succ n ih =>
    rw [goForFrom_succ, goForFrom_succ, h i s (le_refl _) (by omega)]
    refine congrArg _ (funext fun s' => ?_)
    have := ih (i + 1) s' (fun k s h1 h2 => h k s (by omega) (by omega))
    rw [show ((d + i : Nat) : Int) + 1 = ((d + (i + 1) : Nat) : Int) by push_cast; ring, this]
    push_cast; rfl

theorem convertStep_shift (n d : Nat) (c : Nat → Candle F) (a b r : Int) (k : Nat) (hk : d + k < n) (S) :
    convertStep (tab n c) a b r ((d + k : Nat) : Int) S = convertStep (tab (n - d) fun x => c (d + x)) a b r (k : Int) S := by
  obtain ⟨cs, t, f⟩ := S
  cases f with
  | true => rfl
  | false =>
    simp only [convertStep, tab_length]
    rw [idx_tab hk, idx_tab (show k < n - d by omega)]
    have e1 : ((d + k : Nat) : Int) < (n : Int) - 1 ↔ (k : Int) < ((n - d : Nat) : Int) - 1 := by omega
    have e2 : (n : Int) - ((d + k : Nat) : Int) - 1 = ((n - d : Nat) : Int) - (k : Int) - 1 := by omega
    rw [e2]
    simp only [e1]
    by_cases g : (k : Int) < ((n - d : Nat) : Int) - 1
    · have e3 : idx (tab n c) (((d + k : Nat) : Int) + 1) = idx (tab (n - d) fun x => c (d + x)) ((k : Int) + 1) := by
        rw [show ((d + k : Nat) : Int) + 1 = ((d + (k + 1) : Nat) : Int) by push_cast; ring,
          show (k : Int) + 1 = ((k + 1 : Nat) : Int) by push_cast; ring, idx_tab (show d + (k + 1) < n by omega),
          idx_tab (show k + 1 < n - d by omega)]
      rw [e3]
    · simp only [g, false_and, if_false]

/-- If the first `d` candles leave the state as it is, the loop does what it does without them. -/
theorem convertLoop_skip (n d : Nat) (c : Nat → Candle F) (a b r : Int) (hd : d ≤ n) (S)
    (h : ∀ k < d, convertStep (tab n c) a b r (k : Int) S = .ok S) :
    goFor 0 (tab n c).length S (convertStep (tab n c) a b r) =
      goFor 0 (tab (n - d) fun x => c (d + x)).length S (convertStep (tab (n - d) fun x => c (d + x)) a b r) := by
  unfold goFor
  rw [tab_length, tab_length, show ((n : Int) - 0).toNat = d + (n - d) by omega, show (((n - d : Nat) : Int) - 0).toNat = n - d by omega,
    goForFrom_add, goForFrom_skip 0 d (fun k hk => by rw [Int.zero_add]; exact h k hk), ok_bind]
  have := goForFrom_shift (body := convertStep (tab n c) a b r) (body' := convertStep (tab (n - d) fun x => c (d + x)) a b r) d 0 (n - d) S
    (fun k s _ h2 => convertStep_shift n d c a b r k (by omega) s)
  rw [Nat.add_zero, Nat.cast_zero] at this
  rw [Int.zero_add]
  exact this

/-- The conversion of a gap-free series, up to the main loop; `B` is the rounded start. -/
theorem convert_stamped (now : Int) (e : Item F) (n r : Nat) (cd : Nat → Candle F) (s t0 B : Int) (hcd : e.candles = tab n cd)
    (hs : 0 < s) (hi : e.interval = s * nsec) (hr : 2 ≤ r) (hrn : r ≤ n) (ht0 : 0 < t0)
    (htime : ∀ x, x < n → (cd x).timeUnix = t0 + x * s) (hB : roundT (r * e.interval) (ofUnix t0) = ofUnix B) :
    ConvertToNewInterval now (some e) (r * e.interval) = (do
      let (candles, _, _) ← goFor 0 (tab n cd).length
        (tab (n / r) fun j => some (Candle.zero (F := F) (B + (j * r : Nat) * s)), (0 : Int), false)
        (convertStep (tab n cd) s (r * s) r)
      match allSlots candles with
      | none => .error .nilDeref
      | some cs => .ok (.ok (newItem e (r * e.interval) cs))) := by
  have hnp : (0 : Int) < nsec := by decide
  have hi0 : 0 < e.interval := by rw [hi]; exact Int.mul_pos hs hnp
  have hri : e.interval < (r : Int) * e.interval := by
    have : 2 * e.interval ≤ (r : Int) * e.interval := Int.mul_le_mul_of_nonneg_right (by omega) (by omega)
    omega
  have hst0 : (cd 0).timeUnix = t0 := by rw [htime 0 (by omega)]; simp
  have hstop : ofUnix (cd (n - 1)).timeUnix + e.interval = ofUnix t0 + n * e.interval := by
    rw [htime (n - 1) (by omega), hi]
    have : ((n - 1 : Nat) : Int) = n - 1 := by omega
    rw [this]; unfold ofUnix; ring
  have hpos : 0 < ofUnix t0 := Int.mul_pos ht0 hnp
  have hnpos : 0 < (n : Int) * e.interval := Int.mul_pos (by omega) hi0
  have hzt : zeroTime < 0 := by decide
  have hm1 : 1 ≤ n / r := Nat.div_pos hrn (by omega)
  rw [convert_eq now e _ n r cd hi0 hri rfl (by omega) hcd, hstop, hst0]
  have hw : ofUnix t0 + (n : Int) * e.interval - ofUnix t0 = n * e.interval := by ring
  rw [hw, Int.mul_tdiv_cancel _ (by omega), if_neg (by simp), if_neg (by omega)]
  have hchk : StartEndTimeCheck now (ofUnix t0) (ofUnix t0 + n * e.interval) = .ok () ∨
      StartEndTimeCheck now (ofUnix t0) (ofUnix t0 + n * e.interval) = .error .startAfterNow := by
    unfold StartEndTimeCheck
    rw [if_neg (by omega), if_neg (by omega), if_neg (by omega), if_neg (by omega)]
    split <;> simp
  obtain ⟨N, L, k, hN, hL1, hL2, hx, hk1, hcov, hk0, htight, hcalc⟩ :=
    calc_eq now _ _ (r * e.interval) 100000 hchk (by omega)
  have hflat := flat_ranges (roundT (r * e.interval) (ofUnix t0)) (r * e.interval) N L k hx
  rw [show min (k * L) N = N by have := hcov (by omega); omega] at hflat
  have hmr : ((n / r : Nat) : Int) * (r * e.interval) ≤ (n : Int) * e.interval := by
    rw [← mul_assoc]
    refine Int.mul_le_mul_of_nonneg_right ?_ (by omega)
    exact_mod_cast Nat.div_mul_le_self n r
  have hmN : n / r ≤ N := enough_intervals (by omega) (by omega) hN
  rw [hcalc, ok_bind]
  simp only
  rw [assignRanges_eq _ _ N (n / r) hflat hmN, ok_bind]
  simp only
  have hstamp : (tab (n / r) fun j => some (Candle.zero (F := F)
        (unix (ivAt (roundT (r * e.interval) (ofUnix t0)) (r * e.interval) j).start.time)))
      = tab (n / r) fun j => some (Candle.zero (B + (j * r : Nat) * s)) := by
    refine tab_ext fun j hj => ?_
    congr 2
    rw [hB]
    simp only [ivAt, CreateIntervalTime]
    unfold ofUnix unix
    rw [hi, show B * nsec + (j : Int) * ((r : Int) * (s * nsec)) = (B + ((j * r : Nat) : Int) * s) * nsec by
      push_cast; ring, Int.mul_ediv_cancel _ (by omega)]
  have hsec1 : wholeSeconds e.interval = s := by
    rw [wholeSeconds, hi, Int.mul_tdiv_cancel _ (by omega)]
  have hsec2 : wholeSeconds (r * e.interval) = r * s := by
    rw [wholeSeconds, hi, ← mul_assoc, Int.mul_tdiv_cancel _ (by omega)]
  rw [hstamp, hsec1, hsec2]
  rfl

theorem roundT_up {I u : Int} {r d : Nat} (hI : 0 < I) (hd : 1 ≤ d) (hdr : 2 * d ≤ r) (h : r * I ∣ u + d * I + zeroOffset) :
    roundT (r * I) u = u + d * I := by
  have hD : 0 < (r : Int) * I := Int.mul_pos (by omega) hI
  have h1 : ((2 * d : Nat) : Int) * I ≤ (r : Int) * I := Int.mul_le_mul_of_nonneg_right (by omega) (by omega)
  have h3 : 0 < (d : Int) * I := Int.mul_pos (by omega) hI
  have h2 : (u + zeroOffset) % ((r : Int) * I) = (r : Int) * I - d * I := by
    obtain ⟨q, hq⟩ := h
    rw [show u + zeroOffset = ((r : Int) * I - d * I) + (r : Int) * I * (q - 1) by rw [mul_sub, ← hq]; ring, Int.add_mul_emod_self_left]
    push_cast at h1
    exact Int.emod_eq_of_lt (by linarith) (by linarith)
  unfold roundT
  rw [if_neg (by omega), h2]
  push_cast at h1
  simp only
  rw [if_neg (by linarith)]
  ring

theorem roundT_down {I u : Int} {r d : Nat} (hI : 0 < I) (hdr : 2 * d < r) (h : r * I ∣ u - d * I + zeroOffset) :
    roundT (r * I) u = u - d * I := by
  have hD : 0 < (r : Int) * I := Int.mul_pos (by omega) hI
  have h1 : ((2 * d + 1 : Nat) : Int) * I ≤ (r : Int) * I := Int.mul_le_mul_of_nonneg_right (by omega) (by omega)
  have h3 : 0 ≤ (d : Int) * I := Int.mul_nonneg (by omega) (by omega)
  push_cast at h1
  have h2 : (u + zeroOffset) % ((r : Int) * I) = d * I := by
    obtain ⟨q, hq⟩ := h
    rw [show u + zeroOffset = (d : Int) * I + (r : Int) * I * q by rw [← hq]; ring, Int.add_mul_emod_self_left]
    exact Int.emod_eq_of_lt (by linarith) (by linarith)
  unfold roundT
  rw [if_neg (by omega), h2]
  simp only
  rw [if_pos (by linarith)]

/-- **C154 (rounding up).** A gap-free series whose start is `d <= r/2` candles before a multiple of the new interval, any numbers: if the series
has `d` left-over candles or more, `ConvertToNewInterval` gives exactly what it gives without the first `d` candles. -/
theorem C154_early (now : Int) (e : Item F) (n r d : Nat) (hn : e.candles.length = n) (hi : 0 < e.interval) (hr : 2 ≤ r) (hrn : r ≤ n)
    (hd : 1 ≤ d) (hdr : 2 * d ≤ r) (hrest : d ≤ n % r) (t0 : Int) (ht0 : 0 < t0)
    (hgap : ∀ (x : Nat) (b : Candle F), e.candles[x]? = some b → ofUnix b.timeUnix = ofUnix t0 + x * e.interval)
    (halign : r * e.interval ∣ ofUnix t0 + d * e.interval + zeroOffset) :
    ConvertToNewInterval now (some e) (r * e.interval) =
      ConvertToNewInterval now (some { e with candles := e.candles.drop d }) (r * e.interval) := by
  obtain ⟨cd, hcd⟩ := exists_tabCandles e.candles
  rw [hn] at hcd
  have hnp : (0 : Int) < nsec := by decide
  have hgap' : ∀ x, x < n → ofUnix (cd x).timeUnix = ofUnix t0 + x * e.interval :=
    fun x hx => hgap x _ (by rw [hcd, tab_getElem?_lt hx])
  obtain ⟨s, hsv⟩ : ∃ s : Int, e.interval = s * nsec := by
    have h1 := hgap' 1 (by omega)
    refine ⟨(cd 1).timeUnix - t0, ?_⟩
    unfold ofUnix at h1
    rw [sub_mul, h1]; simp
  have hs : 0 < s := by
    by_contra hneg
    have := Int.mul_le_mul_of_nonneg_right (show s ≤ 0 by omega) (le_of_lt hnp)
    omega
  have htime : ∀ x, x < n → (cd x).timeUnix = t0 + x * s := by
    intro x hx
    have h1 := hgap' x hx
    unfold ofUnix at h1
    rw [hsv] at h1
    refine Int.eq_of_mul_eq_mul_right (a := nsec) (by omega) ?_
    rw [h1]; ring
  have hup : ofUnix t0 + d * e.interval = ofUnix (t0 + d * s) := by unfold ofUnix; rw [hsv]; ring
  have hds : 0 < (d : Int) * s := Int.mul_pos (by omega) hs
  have hsame : (n - d) / r = n / r := by
    have h1 := Nat.div_add_mod n r
    have h2 := Nat.mod_lt n (show 0 < r by omega)
    rw [Nat.mul_comm] at h1
    refine Nat.div_eq_of_lt_le (by omega) ?_
    rw [Nat.succ_mul]; omega
  have hrd : r ≤ n - d := by
    have : 1 ≤ (n - d) / r := by rw [hsame]; exact Nat.div_pos hrn (by omega)
    have := (Nat.le_div_iff_mul_le (show 0 < r by omega)).1 this
    omega
  have hdrop : e.candles.drop d = tab (n - d) fun x => cd (d + x) := by
    rw [hcd]
    refine List.ext_getElem? fun x => ?_
    rw [List.getElem?_drop, tab_getElem?, tab_getElem?]
    by_cases g : x < n - d
    · rw [if_pos g, if_pos (by omega)]
    · rw [if_neg g, if_neg (by omega)]
  rw [convert_stamped now e n r cd s t0 (t0 + d * s) hcd hs hsv hr hrn ht0 htime
      (by rw [roundT_up hi hd hdr halign, hup])]
  have h2 := convert_stamped now { e with candles := e.candles.drop d } (n - d) r (fun x => cd (d + x)) s (t0 + d * s) (t0 + d * s) hdrop hs hsv hr
    hrd (by omega) (fun x hx => by rw [htime _ (by omega)]; push_cast; ring)
    (by dsimp only; rw [roundT_aligned (Int.mul_pos (by omega) hi) (by rw [← hup]; exact halign)])
  dsimp only at h2
  rw [h2, hsame, convertLoop_skip n d cd s (r * s) r (by omega)]
  · rfl
  · -- candles before the first coarse candle are ignored
    intro k hk
    have hm1 : 0 < n / r := Nat.div_pos hrn (by omega)
    have hkd : (k : Int) * s + s ≤ d * s := by
      have : ((k + 1 : Nat) : Int) * s ≤ (d : Int) * s := Int.mul_le_mul_of_nonneg_right (by omega) (by omega)
      push_cast at this
      linarith
    have hrs : 0 < (r : Int) * s := Int.mul_pos (by omega) hs
    simp only [convertStep]
    rw [idx_tab (show k < n by omega), ok_bind]
    have hz : idx (tab (n / r) fun j => some (Candle.zero (F := F) (t0 + d * s + (j * r : Nat) * s))) 0
        = .ok (some (Candle.zero (t0 + d * s))) := by
      have := idx_tab (x := fun j => some (Candle.zero (F := F) (t0 + d * s + (j * r : Nat) * s))) (i := 0) hm1
      simpa using this
    have hmerge : mergeCandle s (r * s) (cd k) (Candle.zero (t0 + d * s)) = Candle.zero (t0 + d * s) := by
      have t1 := htime k (by omega)
      have n1 : ¬ (cd k).timeUnix = t0 + d * s := by omega
      have n2 : ¬ (cd k).timeUnix > t0 + d * s := by omega
      have n3 : ¬ (cd k).timeUnix + s = t0 + d * s + r * s := by omega
      unfold mergeCandle
      simp only [Candle.zero, n1, n2, n3, false_and, false_or, if_false]
    rw [hz, ok_bind, derefSlot_some, ok_bind, hmerge]
    have hset : setAt (tab (n / r) fun j => some (Candle.zero (F := F) (t0 + d * s + (j * r : Nat) * s))) (0 : Int)
        (some (Candle.zero (t0 + d * s))) = .ok (tab (n / r) fun j => some (Candle.zero (F := F) (t0 + d * s + (j * r : Nat) * s))) := by
      have := setAt_tab (x := fun j => some (Candle.zero (F := F) (t0 + d * s + (j * r : Nat) * s))) (i := 0)
        (v := some (Candle.zero (t0 + d * s))) hm1
      rw [Nat.cast_zero] at this
      rw [this]
      congr 1
      refine tab_ext fun j _ => ?_
      split
      · next h => subst h; simp
      · rfl
    rw [hset, ok_bind]
    simp only [tab_length]
    split
    · next hc =>
      rw [show ((k : Int) + 1) = ((k + 1 : Nat) : Int) by push_cast; rfl, idx_tab (show k + 1 < n by omega), ok_bind,
        show ((0 : Int) + 1) = ((1 : Nat) : Int) by rfl, idx_tab (show 1 < n / r by omega), ok_bind, derefSlot_some, ok_bind, if_neg]
      · rfl
      · rw [htime (k + 1) (by omega)]
        simp only [Candle.zero]
        push_cast
        intro h
        rw [one_mul, add_mul, one_mul] at h
        omega
    · rfl

/-- Merging an empty candle into an empty one. -/
theorem mergeCandle_empty (hz : (fl 0 +. fl 0 : F) = fl 0) (a b t t' : Int) (h : ¬ t' + a = t + b) :
    mergeCandle a b (Candle.zero (F := F) t') (Candle.zero t) = Candle.zero t := by
  have self : ∀ (p : Prop) [Decidable p] (x : Candle F), (if p then x else x) = x := fun p _ x => by split <;> rfl
  unfold mergeCandle
  extract_lets t1 t2 t3 t4 t5 t6
  have e1 : t1 = Candle.zero t := self _ _
  have e2 : t2 = Candle.zero t := by simp only [t2, e1]; exact self _ _
  have e3 : t3 = Candle.zero t := by simp only [t3, e2]; exact self _ _
  have e4 : t4 = Candle.zero t := by
    simp only [t4, e3]
    split
    · simp only [Candle.zero, hz]
    · rfl
  rw [e4]
  exact if_neg h

/-- **C154 (rounding down).** A gap-free series whose start is `d < r/2` candles after a multiple of the new interval, numbers with `0 + 0 = 0`: if
`d` more candles would not make another coarse candle, `ConvertToNewInterval` gives exactly what it gives when `d` empty candles are put in
front. So (C151) the first coarse candle has open 0. -/
theorem C154_late (hz : (fl 0 +. fl 0 : F) = fl 0) (now : Int) (e : Item F) (n r d : Nat) (hn : e.candles.length = n) (hi : 0 < e.interval)
    (hr : 2 ≤ r) (hrn : r ≤ n) (hdr : 2 * d < r) (hrest : n % r + d < r) (t0 : Int) (ht0 : 0 < ofUnix t0 - d * e.interval)
    (hgap : ∀ (x : Nat) (b : Candle F), e.candles[x]? = some b → ofUnix b.timeUnix = ofUnix t0 + x * e.interval)
    (halign : r * e.interval ∣ ofUnix t0 - d * e.interval + zeroOffset) :
    ConvertToNewInterval now (some e) (r * e.interval) =
      ConvertToNewInterval now (some { e with
        candles := (tab d fun x => Candle.zero (t0 - (d - x : Nat) * unix e.interval)) ++ e.candles }) (r * e.interval) := by
  obtain ⟨cd, hcd⟩ := exists_tabCandles e.candles
  rw [hn] at hcd
  have hnp : (0 : Int) < nsec := by decide
  have hgap' : ∀ x, x < n → ofUnix (cd x).timeUnix = ofUnix t0 + x * e.interval :=
    fun x hx => hgap x _ (by rw [hcd, tab_getElem?_lt hx])
  obtain ⟨s, hsv⟩ : ∃ s : Int, e.interval = s * nsec := by
    have h1 := hgap' 1 (by omega)
    refine ⟨(cd 1).timeUnix - t0, ?_⟩
    unfold ofUnix at h1
    rw [sub_mul, h1]; simp
  have hs : 0 < s := by
    by_contra hneg
    have := Int.mul_le_mul_of_nonneg_right (show s ≤ 0 by omega) (le_of_lt hnp)
    omega
  have htime : ∀ x, x < n → (cd x).timeUnix = t0 + x * s := by
    intro x hx
    have h1 := hgap' x hx
    unfold ofUnix at h1
    rw [hsv] at h1
    refine Int.eq_of_mul_eq_mul_right (a := nsec) (by omega) ?_
    rw [h1]; ring
  have hunix : unix e.interval = s := by
    unfold unix
    rw [hsv, Int.mul_ediv_cancel _ (by omega)]
  have hdn : ofUnix t0 - d * e.interval = ofUnix (t0 - d * s) := by unfold ofUnix; rw [hsv]; ring
  have hds : 0 ≤ (d : Int) * s := Int.mul_nonneg (by omega) (by omega)
  have hB0 : 0 < t0 - d * s := by
    rw [hdn] at ht0
    unfold ofUnix at ht0
    by_contra hneg
    have := Int.mul_le_mul_of_nonneg_right (show t0 - d * s ≤ 0 by omega) (le_of_lt hnp)
    omega
  have hsame : (n + d) / r = n / r := by
    have h1 := Nat.div_add_mod n r
    rw [Nat.mul_comm] at h1
    refine Nat.div_eq_of_lt_le (by omega) ?_
    rw [Nat.succ_mul]; omega
  set cd' : Nat → Candle F := fun x => if x < d then Candle.zero (t0 - (d - x : Nat) * s) else cd (x - d) with hcd'
  have hpad : ((tab d fun x => Candle.zero (t0 - (d - x : Nat) * unix e.interval)) ++ e.candles) = tab (n + d) cd' := by
    rw [hcd, hunix]
    refine List.ext_getElem? fun x => ?_
    rcases Nat.lt_or_ge x d with g | g
    · rw [List.getElem?_append_left (by rw [tab_length]; exact g), tab_getElem?_lt g, tab_getElem?_lt (by omega), hcd']
      simp only [if_pos g]
    · rw [List.getElem?_append_right (by rw [tab_length]; exact g), tab_length, tab_getElem?, tab_getElem?, hcd']
      by_cases g' : x - d < n
      · rw [if_pos g', if_pos (by omega)]
        simp only [if_neg (show ¬ x < d by omega)]
      · rw [if_neg g', if_neg (by omega)]
  have htime' : ∀ x, x < n + d → (cd' x).timeUnix = t0 - d * s + x * s := by
    intro x hx
    rw [hcd']
    by_cases g : x < d
    · simp only [if_pos g, Candle.zero]
      rw [Nat.cast_sub (by omega)]
      ring
    · simp only [if_neg g]
      rw [htime _ (by omega), Nat.cast_sub (by omega)]
      ring
  rw [convert_stamped now e n r cd s t0 (t0 - d * s) hcd hs hsv hr hrn (by omega) htime
      (by rw [roundT_down hi hdr halign, hdn])]
  have h2 := convert_stamped now { e with candles := (tab d fun x => Candle.zero (t0 - (d - x : Nat) * unix e.interval)) ++ e.candles }
    (n + d) r cd' s (t0 - d * s) (t0 - d * s) hpad hs hsv hr (by omega) hB0 htime'
    (by dsimp only; rw [roundT_aligned (Int.mul_pos (by omega) hi) (by rw [← hdn]; exact halign)])
  dsimp only at h2
  rw [h2, hsame, convertLoop_skip (n + d) d cd' s (r * s) r (by omega)]
  · have : (tab (n + d - d) fun x => cd' (d + x)) = tab n cd := by
      rw [Nat.add_sub_cancel]
      refine tab_ext fun x _ => ?_
      rw [hcd']
      simp only [if_neg (show ¬ d + x < d by omega), Nat.add_sub_cancel_left]
    rw [this]
    rfl
  · -- empty candles at the start of a coarse candle change nothing
    intro k hk
    have hm1 : 0 < n / r := Nat.div_pos hrn (by omega)
    have hkr : ((k : Int) + 1) * s < r * s := Int.mul_lt_mul_of_pos_right (by omega) hs
    have hks : 0 ≤ (k : Int) * s := Int.mul_nonneg (by omega) (by omega)
    rw [add_mul, one_mul] at hkr
    simp only [convertStep]
    rw [idx_tab (show k < n + d by omega), ok_bind]
    have hz0 : idx (tab (n / r) fun j => some (Candle.zero (F := F) (t0 - d * s + (j * r : Nat) * s))) 0
        = .ok (some (Candle.zero (t0 - d * s))) := by
      have := idx_tab (x := fun j => some (Candle.zero (F := F) (t0 - d * s + (j * r : Nat) * s))) (i := 0) hm1
      simpa using this
    have hk' : cd' k = Candle.zero (t0 - d * s + k * s) := by
      have := htime' k (by omega)
      rw [hcd'] at this ⊢
      simp only [if_pos hk] at this ⊢
      exact congrArg Candle.zero this
    have hmerge : mergeCandle s (r * s) (cd' k) (Candle.zero (t0 - d * s)) = Candle.zero (t0 - d * s) := by
      have n3 : ¬ t0 - d * s + k * s + s = t0 - d * s + r * s := by omega
      rw [hk', mergeCandle_empty hz _ _ _ _ n3]
    rw [hz0, ok_bind, derefSlot_some, ok_bind, hmerge]
    have hset : setAt (tab (n / r) fun j => some (Candle.zero (F := F) (t0 - d * s + (j * r : Nat) * s))) (0 : Int)
        (some (Candle.zero (t0 - d * s))) = .ok (tab (n / r) fun j => some (Candle.zero (F := F) (t0 - d * s + (j * r : Nat) * s))) := by
      have := setAt_tab (x := fun j => some (Candle.zero (F := F) (t0 - d * s + (j * r : Nat) * s))) (i := 0)
        (v := some (Candle.zero (t0 - d * s))) hm1
      rw [Nat.cast_zero] at this
      rw [this]
      congr 1
      refine tab_ext fun j _ => ?_
      split
      · next h => subst h; simp
      · rfl
    rw [hset, ok_bind]
    simp only [tab_length]
    split
    · next hc =>
      rw [show ((k : Int) + 1) = ((k + 1 : Nat) : Int) by push_cast; rfl, idx_tab (show k + 1 < n + d by omega), ok_bind,
        show ((0 : Int) + 1) = ((1 : Nat) : Int) by rfl, idx_tab (show 1 < n / r by omega), ok_bind, derefSlot_some, ok_bind, if_neg]
      · rfl
      · rw [htime' (k + 1) (by omega)]
        simp only [Candle.zero]
        push_cast
        intro h
        rw [one_mul, add_mul, one_mul] at h
        omega
    · rfl

end Any

/-- The ten minutes 240 to 780 from the `k`-th on. -/
def minutesFrom (k : Nat) : Item (XF ℚ) :=
  { ninthLeft with candles := (ninthLeft.candles ++ [candleOf 780 2 4 1 3 1]).drop k }

/-- Nine minutes from 300 on into two-minute candles: the first minute is ignored. -/
example : ConvertToNewInterval 0 (some (minutesFrom 1)) ((2 : Nat) * (60 * nsec)) =
    ConvertToNewInterval 0 (some (minutesFrom 2)) ((2 : Nat) * (60 * nsec)) :=
  C154_early 0 (minutesFrom 1) 9 2 1 rfl (by decide) (by decide) (by decide) (by decide) (by decide) (by decide) 300 (by decide)
    (by
      intro x b hx
      match x, hx with
      | 0, hx | 1, hx | 2, hx | 3, hx | 4, hx | 5, hx | 6, hx | 7, hx | 8, hx => cases hx; rfl)
    (by decide)

/-- Nine minutes from 300 on into four-minute candles: as if there were an empty minute at 240. -/
example : ConvertToNewInterval 0 (some (minutesFrom 1)) ((4 : Nat) * (60 * nsec)) =
    ConvertToNewInterval 0 (some { minutesFrom 1 with candles := [Candle.zero 240] ++ (minutesFrom 1).candles }) ((4 : Nat) * (60 * nsec)) :=
  C154_late (by rw [fl_fin, add_fin]; simp) 0 (minutesFrom 1) 9 4 1 rfl (by decide) (by decide) (by decide) (by decide) (by decide) 300 (by decide)
    (by
      intro x b hx
      match x, hx with
      | 0, hx | 1, hx | 2, hx | 3, hx | 4, hx | 5, hx | 6, hx | 7, hx | 8, hx => cases hx; rfl)
    (by decide)

/-- Times, opens, closes and volumes of `minutesFrom k` upscaled by `r`. -/
def rowsFrom (k r : Nat) : List (Int × List (XF ℚ)) :=
  match ConvertToNewInterval 0 (some (minutesFrom k)) (r * (60 * nsec)) with
  | .ok (.ok it) => it.candles.map fun b => (b.timeUnix, [b.open_, b.close, b.volume])
  | _ => []

/-- **That the coarse candles cover such a series is false**: a series from 300 on gives a first four-minute candle with open 0, although every minute has
a positive open; eight minutes from 360 on give one candle for the last six minutes with the volume of four of them, and an empty one. -/
theorem C154_cover_refuted :
    rowsFrom 1 4 = [(240, [.fin 0, .fin 6, .fin 9]), (480, [.fin 6, .fin 3, .fin 11])] ∧
    rowsFrom 2 4 = [(480, [.fin 6, .fin 3, .fin 11]), (720, [.fin 0, .fin 0, .fin 0])] := by
  decide +kernel

end Verif.Props
