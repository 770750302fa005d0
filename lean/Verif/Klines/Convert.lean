import Verif.Klines.Ranges

/-!
# Upscaling candles (`utils/klines/kline.go:25-142`)
-/

set_option linter.unusedSectionVars false

namespace Verif.Klines
open Verif GoFloat

variable {F : Type} [GoFloat F]

/-- `int64(d.Seconds())` for a duration in nanoseconds: whole seconds, truncated. Simplification: Go adds seconds and
fraction in float64, which can round up to the next second when the duration is above `2^24` seconds and not a whole
number of them; `seconds64` in Convert64.lean does as Go does, see C15_machine. -/
def wholeSeconds (d : Int) : Int := d.tdiv nsec

/-- Models utils/klines/kline.go:86-97, inner loop: stamp the candles with the starts of the intervals
of one range; `break` when all candles are stamped. -/
def assignIntervals : List IntervalData → List (Option (Candle F)) × Int →
    Go (List (Option (Candle F)) × Int)
  | [], st => pure st
  | iv :: rest, (cs, target) =>
    if target ≥ cs.length then pure (cs, target)
    else do
      let cs ← setAt cs target (some (Candle.zero (unix iv.start.time)))
      assignIntervals rest (cs, target + 1)

/-- Models utils/klines/kline.go:86-97, outer loop (the `break` only leaves the inner loop). -/
def assignRanges : List IntervalRange → List (Option (Candle F)) × Int →
    Go (List (Option (Candle F)) × Int)
  | [], st => pure st
  | r :: rest, st => do
    let st ← assignIntervals r.intervals st
    assignRanges rest st

/-- Models utils/klines/kline.go:102-124: merge the old candle `c` into the new candle `t`. -/
def mergeCandle (oldSec newSec : Int) (c t : Candle F) : Candle F :=
  let t := if c.timeUnix = t.timeUnix ∧ (t.open_ ==. fl 0) then { t with open_ := c.open_ } else t
  let t := if c.timeUnix = t.timeUnix ∨ (c.timeUnix > t.timeUnix ∧ (c.high >. t.high))
    then { t with high := c.high } else t
  let t := if c.timeUnix = t.timeUnix ∨ (c.timeUnix > t.timeUnix ∧ ((t.low ==. fl 0) ∨ (c.low <. t.low)))
    then { t with low := c.low } else t
  let t := if c.timeUnix = t.timeUnix ∨ (c.timeUnix > t.timeUnix ∧ c.timeUnix < t.timeUnix + newSec)
    then { t with volume := t.volume +. c.volume } else t
  if c.timeUnix + oldSec = t.timeUnix + newSec then
    let t := { t with close := c.close }
    let t := { t with changePercent := (t.close -. t.open_) /. t.open_ }
    if t.close >. t.open_ then { t with isBull := true } else t
  else t

/-- Dereference of a `*Candle` slot of the new slice. -/
def derefSlot : Option (Candle F) → Go (Candle F)
  | some c => pure c
  | none => .error .nilDeref

/-- Models utils/klines/kline.go:100-136, one iteration of the main loop. The state is the new candles,
`target`, and whether the loop was left with `break`. -/
def convertStep (old : List (Candle F)) (oldSec newSec ratio : Int) (x : Int) :
    List (Option (Candle F)) × Int × Bool → Go (List (Option (Candle F)) × Int × Bool)
  | (cs, target, true) => pure (cs, target, true)
  | (cs, target, false) => do
    let c ← idx old x
    let t ← (idx cs target >>= derefSlot)
    let cs ← setAt cs target (some (mergeCandle oldSec newSec c t))
    if x < old.length - 1 ∧ target < cs.length - 1 then do
      let c' ← idx old (x + 1)
      let t' ← (idx cs (target + 1) >>= derefSlot)
      if c'.timeUnix = t'.timeUnix then
        if old.length - x - 1 < ratio then pure (cs, target, true)
        else pure (cs, target + 1, false)
      else pure (cs, target, false)
    else pure (cs, target, false)

/-- Collect the candles of the new slice (`none` would be a nil pointer in the result). -/
def allSlots : List (Option (Candle F)) → Option (List (Candle F))
  | [] => some []
  | none :: _ => none
  | some c :: rest => (allSlots rest).map (c :: ·)

/-- Models utils/klines/kline.go:25-142 `ConvertToNewInterval`; `e = none` is the nil receiver and
`now` the current time (read by `StartEndTimeCheck`). Simplifications: the subtraction of instants
does not saturate (Go saturates at 292 years; see Convert64.lean), and a result containing a nil candle pointer — which
is impossible, see `convertLoop_total` — would show as `nilDeref`. -/
def ConvertToNewInterval (now : Int) (e : Option (Item F)) (newInterval : Int) : Go (Except KErr (Item F)) :=
  match e with
  | none => pure (.error .nilKline)
  | some e =>
    if e.interval ≤ 0 then pure (.error .invalidInterval)
    else if newInterval ≤ 0 then pure (.error .invalidInterval)
    else if newInterval ≤ e.interval then pure (.error .canOnlyUpscale)
    else do
      let md ← goMod newInterval e.interval
      if md ≠ 0 then pure (.error .wholeNumberScaling)
      else do
        let first ← idx e.candles 0
        let start := ofUnix first.timeUnix
        let last ← idx e.candles (e.candles.length - 1)
        let stop := ofUnix last.timeUnix + e.interval
        let window := stop - start
        let expected ← goDiv window e.interval
        if expected ≠ e.candles.length then pure (.error .notPadded)
        else do
          let ratio ← goDiv newInterval e.interval
          let m ← goDiv e.candles.length ratio
          let candles ← mk m (none : Option (Candle F))
          if (candles.length : Int) = 0 then pure (.error .insufficientData)
          else do
            let h ← CalculateCandleDateRanges now start stop newInterval 100000
            match h with
            | .error _ => .error (.explicit "CalculateCandleDateRanges")
            | .ok h =>
              let (candles, _) ← assignRanges h.ranges (candles, 0)
              let (candles, _, _) ← goFor 0 e.candles.length (candles, (0 : Int), false)
                (convertStep e.candles (wholeSeconds e.interval) (wholeSeconds newInterval) ratio)
              match allSlots candles with
              | none => .error .nilDeref
              | some cs => pure (.ok { exchange := e.exchange, interval := newInterval, symbol := "",
                                       code := "", candles := cs })

/-! ## Closed forms -/

theorem assignIntervals_full (l : List IntervalData) (cs : List (Option (Candle F))) (t : Int)
    (h : t ≥ cs.length) : assignIntervals l (cs, t) = .ok (cs, t) := by
  cases l with
  | nil => rfl
  | cons iv l => unfold assignIntervals; rw [if_pos h]; rfl

theorem assignRanges_full (l : List IntervalRange) (cs : List (Option (Candle F))) (t : Int)
    (h : t ≥ cs.length) : assignRanges l (cs, t) = .ok (cs, t) := by
  induction l with
  | nil => rfl
  | cons r l ih => unfold assignRanges; rw [assignIntervals_full _ _ _ h, ok_bind, ih]

theorem assignIntervals_append (l l' : List IntervalData) (st : List (Option (Candle F)) × Int) :
    assignIntervals (l ++ l') st = (do let st ← assignIntervals l st; assignIntervals l' st) := by
  induction l generalizing st with
  | nil => rfl
  | cons iv l ih =>
    obtain ⟨cs, t⟩ := st
    rw [List.cons_append]
    by_cases h : t ≥ cs.length
    · rw [assignIntervals_full _ _ _ h, assignIntervals_full _ _ _ h, ok_bind,
        assignIntervals_full _ _ _ h]
    · rw [assignIntervals, if_neg h, assignIntervals, if_neg h]
      cases setAt cs t (some (Candle.zero (unix iv.start.time))) with
      | error p => rfl
      | ok cs => simp only [ok_bind]; rw [ih]

theorem assignRanges_flat (rs : List IntervalRange) (st : List (Option (Candle F)) × Int) :
    assignRanges rs st = assignIntervals (rs.flatMap (·.intervals)) st := by
  induction rs generalizing st with
  | nil => rfl
  | cons r rs ih =>
    rw [List.flatMap_cons, assignIntervals_append]
    unfold assignRanges
    cases assignIntervals r.intervals st with
    | error p => rfl
    | ok st => simp only [ok_bind]; rw [ih]

theorem assignIntervals_from (f : Nat → IntervalData) (m : Nat) (k d : Nat) (hk : k ≤ m) (hd : m ≤ k + d) :
    assignIntervals (tab d fun j => f (k + j))
        ((filled m k (fun j => some (Candle.zero (F := F) (unix (f j).start.time))) none), (k : Int))
      = .ok (tab m fun j => some (Candle.zero (unix (f j).start.time)), (m : Int)) := by
  induction d generalizing k with
  | zero =>
    have : k = m := by omega
    subst this
    rw [filled_full]; rfl
  | succ d ih =>
    by_cases hkm : k = m
    · subst hkm
      rw [assignIntervals_full _ _ _ (by simp), filled_full]
    · have e : tab (d + 1) (fun j => f (k + j)) = f k :: tab d (fun j => f (k + 1 + j)) := by
        symm
        refine eq_tab_of_forall (by simp) fun i hi => ?_
        cases i with
        | zero => rfl
        | succ i =>
          rw [List.getElem?_cons_succ, tab_getElem?_lt (by omega)]
          congr 2; omega
      rw [e]
      unfold assignIntervals
      rw [if_neg (by simp; omega)]
      rw [setAt_filled (f := fun j => some (Candle.zero (F := F) (unix (f j).start.time))) (by omega) rfl,
        ok_bind]
      have := ih (k + 1) (by omega) (by omega)
      push_cast at this
      exact this

/-- The pre-assignment stamps candle `j` with the start of interval `j`. -/
theorem assignRanges_eq (rs : List IntervalRange) (f : Nat → IntervalData) (N m : Nat)
    (h : rs.flatMap (·.intervals) = tab N f) (hm : m ≤ N) :
    assignRanges rs (List.replicate m (none : Option (Candle F)), 0)
      = .ok (tab m fun j => some (Candle.zero (unix (f j).start.time)), (m : Int)) := by
  rw [assignRanges_flat, h, filled_zero m (fun j => some (Candle.zero (F := F) (unix (f j).start.time)))]
  have := assignIntervals_from (F := F) f m 0 N (by omega) (by omega)
  simpa using this

theorem allSlots_tab (m : Nat) (f : Nat → Candle F) :
    allSlots (tab m fun j => some (f j)) = some (tab m f) := by
  have h : ∀ l : List (Candle F), allSlots (l.map some) = some l := by
    intro l
    induction l with
    | nil => rfl
    | cons a l ih => simp [allSlots, ih]
  have : (tab m fun j => some (f j)) = (tab m f).map some := by rw [map_tab]
  rw [this, h]

theorem exists_slots (cs : List (Option (Candle F))) (h : ∀ s ∈ cs, s ≠ none) :
    ∃ l : List (Candle F), cs = l.map some ∧ allSlots cs = some l := by
  induction cs with
  | nil => exact ⟨[], rfl, rfl⟩
  | cons a cs ih =>
    obtain ⟨l, h1, h2⟩ := ih fun s hs => h s (List.mem_cons_of_mem _ hs)
    cases a with
    | none => exact absurd rfl (h none List.mem_cons_self)
    | some c => exact ⟨c :: l, by rw [h1]; rfl, by simp [allSlots, h2]⟩

theorem derefSlot_some (c : Candle F) : derefSlot (some c) = .ok c := rfl

/-- The main loop never panics on stamped candles, whatever the old series. -/
theorem convertLoop_total (old : List (Candle F)) (oldSec newSec ratio : Int) (cs : List (Option (Candle F)))
    (hne : cs ≠ []) (hs : ∀ s ∈ cs, s ≠ none) :
    ∃ (l : List (Candle F)) (t : Int) (b : Bool),
      goFor 0 old.length (cs, (0 : Int), false) (convertStep old oldSec newSec ratio)
        = .ok (l.map some, t, b) ∧ l.length = cs.length := by
  obtain ⟨s', h1, h2⟩ := goFor_inv (n := old.length) (s := (cs, (0 : Int), false))
    (body := convertStep old oldSec newSec ratio)
    (fun _ st => ∃ (l : List (Candle F)), st.1 = l.map some ∧ l.length = cs.length ∧ 0 ≤ st.2.1 ∧
      st.2.1 < cs.length)
    (by
      obtain ⟨l, e, _⟩ := exists_slots cs hs
      exact ⟨l, e, by rw [e]; simp, le_refl _, by
        have := List.length_pos_of_ne_nil hne
        simp only; omega⟩)
    (by
      rintro x ⟨c, t, b⟩ hx ⟨l, rfl, hl, ht0, htl⟩
      simp only at ht0 htl
      cases b with
      | true => exact ⟨_, rfl, l, rfl, hl, ht0, htl⟩
      | false =>
        obtain ⟨T, rfl⟩ := Int.eq_ofNat_of_zero_le ht0
        have hT : T < l.length := by omega
        simp only [convertStep]
        rw [idx_of_getElem? (List.getElem?_eq_getElem hx), ok_bind]
        have e1 : (l.map some)[T]? = some (some l[T]) := by
          rw [List.getElem?_map, List.getElem?_eq_getElem hT]; rfl
        rw [idx_of_getElem? e1, ok_bind]
        simp only [derefSlot, pure_eq_ok, ok_bind]
        rw [setAt_nat (by simpa using hT), ok_bind]
        rw [← List.map_set]
        set l' := l.set T (mergeCandle oldSec newSec old[x] l[T]) with hl'
        have hlen : l'.length = cs.length := by rw [hl', List.length_set, hl]
        split
        · next hc =>
          simp only [List.length_map] at hc
          have hx1 : x + 1 < old.length := by omega
          have hT1 : T + 1 < l'.length := by omega
          rw [show ((x : Int) + 1) = ((x + 1 : Nat) : Int) by push_cast; rfl,
            idx_of_getElem? (List.getElem?_eq_getElem hx1), ok_bind]
          have e2 : (l'.map some)[T + 1]? = some (some l'[T + 1]) := by
            rw [List.getElem?_map, List.getElem?_eq_getElem hT1]; rfl
          rw [show ((T : Int) + 1) = ((T + 1 : Nat) : Int) by push_cast; rfl,
            idx_of_getElem? e2, ok_bind, derefSlot_some, ok_bind]
          split
          · split
            · exact ⟨_, rfl, l', rfl, hlen, ht0, htl⟩
            · exact ⟨_, rfl, l', rfl, hlen, by simp only; omega, by simp only; omega⟩
          · exact ⟨_, rfl, l', rfl, hlen, ht0, htl⟩
        · exact ⟨_, rfl, l', rfl, hlen, ht0, htl⟩)
  obtain ⟨l, e, hl, _, _⟩ := h2
  obtain ⟨c, t, b⟩ := s'
  simp only at e
  subst e
  exact ⟨l, t, b, h1, hl⟩

/-- Rounding commutes with adding whole intervals. -/
theorem roundT_add {d : Int} (hd : 0 < d) (t : Int) (k : Int) : roundT d (t + k * d) = roundT d t + k * d := by
  have hn : ¬ d ≤ 0 := by omega
  unfold roundT
  simp only [if_neg hn]
  have : (t + k * d + zeroOffset) % d = (t + zeroOffset) % d := by
    rw [show t + k * d + zeroOffset = t + zeroOffset + k * d by ring, Int.add_mul_emod_self_right]
  rw [this]
  split <;> ring

/-- The number of new intervals between the rounded ends is enough for all new candles. -/
theorem enough_intervals {d start stop : Int} {N m : Nat} (hd : 0 < d) (hm : start + m * d ≤ stop)
    (hN : roundT d stop = roundT d start + N * d) : m ≤ N := by
  have h1 := roundT_mono hd hm
  rw [roundT_add hd, hN] at h1
  by_contra hc
  have : ((N + 1 : Nat) : Int) * d ≤ (m : Int) * d := Int.mul_le_mul_of_nonneg_right (by omega) (by omega)
  push_cast at this
  rw [add_mul] at this
  omega

/-- The bucket contents after merging the old candles `c lo, .., c (lo+k-1)`. -/
def bucketRun (oldSec newSec : Int) (c : Nat → Candle F) (lo : Nat) (init : Candle F) : Nat → Candle F
  | 0 => init
  | k + 1 => mergeCandle oldSec newSec (c (lo + k)) (bucketRun oldSec newSec c lo init k)

theorem mergeCandle_time (a b : Int) (c t : Candle F) : (mergeCandle a b c t).timeUnix = t.timeUnix := by
  unfold mergeCandle
  simp only
  split_ifs <;> rfl

theorem bucketRun_time (a b : Int) (c : Nat → Candle F) (lo : Nat) (init : Candle F) (k : Nat) :
    (bucketRun a b c lo init k).timeUnix = init.timeUnix := by
  induction k with
  | zero => rfl
  | succ k ih => rw [bucketRun, mergeCandle_time, ih]

/-- The main loop on a gap-free series aligned with the buckets: bucket `j` merges exactly its own `r`
old candles, the last one also everything after it. -/
theorem convertLoop_upTo (n r m : Nat) (s t0 : Int) (c : Nat → Candle F) (hs : 0 < s) (hr : 1 ≤ r)
    (hmr : m * r ≤ n) (hm1 : 1 ≤ m) (ht : ∀ x < n, (c x).timeUnix = t0 + x * s) (oldSec newSec : Int) :
    ∃ t : Int, goFor 0 (tab n c).length
        (tab m fun j => some (Candle.zero (F := F) (t0 + (j * r : Nat) * s)), (0 : Int), false)
        (convertStep (tab n c) oldSec newSec r)
      = .ok (tab m fun j => some (bucketRun oldSec newSec c (j * r) (Candle.zero (t0 + (j * r : Nat) * s))
          (if j + 1 = m then n - j * r else r)), t, false) := by
  rw [tab_length]
  let cnt : Nat → Nat → Nat := fun j x => min (x - j * r) (if j + 1 = m then n - j * r else r)
  let z : Nat → Candle F := fun j => Candle.zero (t0 + (j * r : Nat) * s)
  rw [goFor_acc₀ (S := fun x => (tab m fun j => some (bucketRun oldSec newSec c (j * r) (z j) (cnt j x)),
      ((min (x / r) (m - 1) : Nat) : Int), false))]
  · refine ⟨((min (n / r) (m - 1) : Nat) : Int), ?_⟩
    congr 2
    refine tab_ext fun j hj => ?_
    congr 2
    have h1 : (j + 1) * r ≤ m * r := Nat.mul_le_mul_right _ hj
    have h2 : (j + 1) * r = j * r + r := by ring
    simp only [cnt]
    split <;> omega
  · simp [cnt, bucketRun, z]
  · intro x hx
    set J := min (x / r) (m - 1) with hJ
    have hJm : J < m := by omega
    have hdm := Nat.div_add_mod x r
    have hml := Nat.mod_lt x (show 0 < r by omega)
    have hcomm : r * (x / r) = x / r * r := Nat.mul_comm _ _
    have hJle : J * r ≤ x := by
      have : J * r ≤ x / r * r := Nat.mul_le_mul_right _ (by omega)
      omega
    have hs1 : (J + 1) * r = J * r + r := by ring
    -- position of x in its bucket
    have hcx : cnt J x = x - J * r := by
      simp only [cnt]
      split
      · omega
      · next hne =>
        have : x / r = J := by omega
        rw [← this]; omega
    have hcx1 : cnt J (x + 1) = cnt J x + 1 := by
      rw [hcx]
      simp only [cnt]
      split
      · omega
      · next hne =>
        have : x / r = J := by omega
        rw [← this]; omega
    have hother : ∀ j, j < m → j ≠ J → cnt j (x + 1) = cnt j x := by
      intro j hj hne
      simp only [cnt]
      rcases Nat.lt_or_gt_of_ne hne with h | h
      · have h1 : (j + 1) * r ≤ J * r := Nat.mul_le_mul_right _ h
        have h2 : (j + 1) * r = j * r + r := by ring
        rw [if_neg (by omega)]
        omega
      · have hxr : x / r = J := by omega
        have h1 : (J + 1) * r ≤ j * r := Nat.mul_le_mul_right _ h
        rw [hxr] at hdm hcomm
        split <;> omega
    have htime : ∀ j k, (bucketRun oldSec newSec c (j * r) (z j) k).timeUnix = t0 + (j * r : Nat) * s :=
      fun j k => bucketRun_time _ _ _ _ _ _
    simp only [convertStep]
    rw [idx_tab hx, ok_bind, idx_tab hJm, ok_bind]
    simp only [derefSlot, pure_eq_ok, ok_bind]
    rw [setAt_tab hJm, ok_bind]
    have hset : (tab m fun j => if j = J then some (mergeCandle oldSec newSec (c x)
          (bucketRun oldSec newSec c (J * r) (z J) (cnt J x)))
        else some (bucketRun oldSec newSec c (j * r) (z j) (cnt j x)))
        = tab m fun j => some (bucketRun oldSec newSec c (j * r) (z j) (cnt j (x + 1))) := by
      refine tab_ext fun j hj => ?_
      split
      · next h =>
        subst h
        rw [hcx1, bucketRun, hcx]
        congr 3
        rw [show J * r + (x - J * r) = x by omega]
      · next h => rw [hother j hj h]
    rw [hset]
    simp only [tab_length]
    by_cases hc : (x : Int) < (n : Int) - 1 ∧ (J : Int) < (m : Int) - 1
    · rw [if_pos hc]
      have hx1 : x + 1 < n := by omega
      have hJ1 : J + 1 < m := by omega
      have hxr : x / r = J := by omega
      rw [show ((x : Int) + 1) = ((x + 1 : Nat) : Int) by push_cast; rfl, idx_tab hx1, ok_bind,
        show ((J : Int) + 1) = ((J + 1 : Nat) : Int) by push_cast; rfl, idx_tab hJ1, ok_bind, derefSlot_some, ok_bind]
      rw [ht _ hx1, htime]
      have hiff : (t0 + ((x + 1 : Nat) : Int) * s = t0 + (((J + 1) * r : Nat) : Int) * s) ↔ x + 1 = (J + 1) * r := by
        constructor
        · intro h
          have : ((x + 1 : Nat) : Int) * s = (((J + 1) * r : Nat) : Int) * s := by omega
          have := Int.eq_of_mul_eq_mul_right (by omega) this
          exact_mod_cast this
        · intro h; rw [h]
      by_cases hb : x + 1 = (J + 1) * r
      · rw [if_pos (hiff.mpr hb), if_neg]
        · have : (x + 1) / r = J + 1 := by rw [hb]; exact Nat.mul_div_cancel _ (by omega)
          rw [this]
          congr 3
          omega
        · have : (J + 2) * r ≤ m * r := Nat.mul_le_mul_right _ (by omega)
          have h2 : (J + 2) * r = (J + 1) * r + r := by ring
          push_cast at *
          omega
      · rw [if_neg (fun h => hb (hiff.mp h))]
        have : (x + 1) / r = J := by
          rw [hxr] at hdm hcomm
          exact Nat.div_eq_of_lt_le (by omega) (by omega)
        rw [this]
        congr 3
        omega
    · rw [if_neg hc]
      congr 3
      rcases Nat.lt_or_ge (x + 1) n with hx1 | hx1
      · have : J = m - 1 := by omega
        have : x / r ≤ (x + 1) / r := Nat.div_le_div_right (by omega)
        omega
      · have : x + 1 = n := by omega
        have : x / r ≤ (x + 1) / r := Nat.div_le_div_right (by omega)
        have h1 : (m - 1) * r ≤ x := by
          have : (m - 1) * r + r = m * r := by
            rw [← Nat.succ_mul]; congr 1; omega
          omega
        have : m - 1 ≤ x / r := (Nat.le_div_iff_mul_le (by omega)).mpr h1
        omega

/-- `convertLoop_upTo` with as many buckets as fit. -/
theorem convertLoop_aligned (n r m : Nat) (s t0 : Int) (c : Nat → Candle F) (hs : 0 < s) (hr : 1 ≤ r)
    (hm : m = n / r) (hm1 : 1 ≤ m) (ht : ∀ x < n, (c x).timeUnix = t0 + x * s) (oldSec newSec : Int) :
    ∃ t : Int, goFor 0 (tab n c).length
        (tab m fun j => some (Candle.zero (F := F) (t0 + (j * r : Nat) * s)), (0 : Int), false)
        (convertStep (tab n c) oldSec newSec r)
      = .ok (tab m fun j => some (bucketRun oldSec newSec c (j * r) (Candle.zero (t0 + (j * r : Nat) * s))
          (if j + 1 = m then n - j * r else r)), t, false) :=
  convertLoop_upTo n r m s t0 c hs hr (by rw [hm]; exact Nat.div_mul_le_self n r) hm1 ht oldSec newSec

end Verif.Klines
