import Verif.Klines.Ranges

/-!
# C13, C14: date ranges
-/

set_option linter.unusedSectionVars false

namespace Verif.Props
open Verif Verif.Klines GoFloat XF

/-- The call succeeds with a holder satisfying `p` (for the concrete examples). -/
def succeeds (r : Go (Except KErr IntervalRangeHolder)) (p : IntervalRangeHolder → Bool) : Bool :=
  match r with
  | .ok (.ok h) => p h
  | _ => false

theorem succeeds_spec {r : Go (Except KErr IntervalRangeHolder)} {p : IntervalRangeHolder → Bool}
    (h : succeeds r p = true) : ∃ h, r = .ok (.ok h) ∧ p h = true := by
  unfold succeeds at h
  split at h
  · exact ⟨_, rfl, h⟩
  · cases h

/-! ## C13 -/

/-- An `IntervalTime` stamped with the given instant and its whole seconds. -/
def stamped (x : IntervalTime) (t : Int) : Prop := x.time = t ∧ x.ticks = unix t

/-- **C13 (totality).** `CalculateCandleDateRanges` never panics, and it succeeds exactly when the
interval is positive, both instants are set (neither the zero time nor the Unix epoch) and the start
is before the end. The current time plays no role. -/
theorem C13_total (now start stop interval : Int) (limit : Nat) :
    ∃ r, CalculateCandleDateRanges now start stop interval limit = .ok r ∧
      ((∃ h, r = .ok h) ↔ 0 < interval ∧ start ≠ zeroTime ∧ start ≠ 0 ∧ stop ≠ zeroTime ∧ stop ≠ 0 ∧
        start < stop) := by
  by_cases hchk : start ≠ zeroTime ∧ start ≠ 0 ∧ stop ≠ zeroTime ∧ stop ≠ 0 ∧ start < stop
  · have hs : StartEndTimeCheck now start stop = .ok () ∨
        StartEndTimeCheck now start stop = .error .startAfterNow := by
      unfold StartEndTimeCheck
      obtain ⟨h1, h2, h3, h4, h5⟩ := hchk
      rw [if_neg (by simp [h1, h2]), if_neg (by simp [h3, h4]), if_neg (by omega), if_neg (by omega)]
      split <;> simp
    by_cases hi : 0 < interval
    · obtain ⟨N, L, n, _, _, _, _, _, _, _, _, hr⟩ := calc_eq now start stop interval limit hs hi
      exact ⟨_, hr, ⟨fun _ => ⟨hi, hchk⟩, fun _ => ⟨_, rfl⟩⟩⟩
    · refine ⟨.error .invalidInterval, ?_, ⟨(by rintro ⟨h, hh⟩; cases hh), fun h => absurd h.1 hi⟩⟩
      unfold CalculateCandleDateRanges
      rcases hs with hs | hs <;> (rw [hs]; simp only []; rw [if_pos (by omega)]; rfl)
  · have hs : StartEndTimeCheck now start stop = .error .dateUnset ∨
        StartEndTimeCheck now start stop = .error .startAfterEnd ∨
        StartEndTimeCheck now start stop = .error .startEqualsEnd := by
      unfold StartEndTimeCheck
      by_cases a1 : start = zeroTime ∨ start = 0
      · rw [if_pos a1]; simp
      by_cases a2 : stop = zeroTime ∨ stop = 0
      · rw [if_neg a1, if_pos a2]; simp
      rw [if_neg a1, if_neg a2]
      by_cases a3 : start > stop
      · rw [if_pos a3]; simp
      by_cases a4 : start = stop
      · rw [if_neg a3, if_pos a4]; simp
      · exact absurd ⟨fun h => a1 (.inl h), fun h => a1 (.inr h), fun h => a2 (.inl h),
          fun h => a2 (.inr h), by omega⟩ hchk
    unfold CalculateCandleDateRanges
    rcases hs with hs | hs | hs <;>
      exact ⟨_, by rw [hs]; rfl, ⟨(by rintro ⟨h, hh⟩; cases hh), fun h => absurd h.2 hchk⟩⟩

theorem calc_ok_inv {now start stop interval : Int} {limit : Nat} {h : IntervalRangeHolder}
    (hr : CalculateCandleDateRanges now start stop interval limit = .ok (.ok h)) :
    0 < interval ∧ (StartEndTimeCheck now start stop = .ok () ∨
      StartEndTimeCheck now start stop = .error .startAfterNow) := by
  obtain ⟨r, h1, h2⟩ := C13_total now start stop interval limit
  rw [hr] at h1; cases h1
  obtain ⟨hi, a1, a2, a3, a4, a5⟩ := h2.mp ⟨h, rfl⟩
  refine ⟨hi, ?_⟩
  unfold StartEndTimeCheck
  rw [if_neg (by simp [a1, a2]), if_neg (by simp [a3, a4]), if_neg (by omega), if_neg (by omega)]
  split <;> simp

/-- **C13 (partial).** Whenever `CalculateCandleDateRanges` succeeds — for every start, end, positive
interval and limit, where limit 0 ("no limit") must meet fewer than 2^32 intervals — with `S`, `E` the
rounded ends:
* the distance is a whole number `N` of intervals, and the intervals of all ranges, concatenated, are
  exactly the `N` steps `[S + k*interval, S + (k+1)*interval)`, none marked;
* the holder starts at `S` and ends at `E`;
* every range starts where the previous one ended, the first at `S`, the last ends at `E`, and a
  range spans exactly its own intervals;
* with a non-zero limit every range holds at most `limit` intervals, and only the last may hold fewer;
  with limit 0 there is one range.
Missing from C13: limit 0 with 2^32 or more intervals, where the claim is false (next theorem). -/
theorem C13_ranges_tile_partial (now start stop interval : Int) (limit : Nat) (h : IntervalRangeHolder)
    (hr : CalculateCandleDateRanges now start stop interval limit = .ok (.ok h))
    (hlim : limit ≠ 0 ∨ roundT interval stop - roundT interval start < 4294967296 * interval) :
    ∃ N : Nat, roundT interval stop = roundT interval start + N * interval ∧
      (h.ranges.flatMap (·.intervals)).length = N ∧
      (∀ (k : Nat) (iv : IntervalData), (h.ranges.flatMap (·.intervals))[k]? = some iv →
        stamped iv.start (roundT interval start + k * interval) ∧
        stamped iv.stop (roundT interval start + (k + 1) * interval) ∧ iv.hasData = false) ∧
      stamped h.start (roundT interval start) ∧ stamped h.stop (roundT interval stop) ∧
      h.ranges ≠ [] ∧
      (∀ r, h.ranges[0]? = some r → r.start = h.start) ∧
      (∀ x r r', h.ranges[x]? = some r → h.ranges[x + 1]? = some r' → r'.start = r.stop) ∧
      (∀ r, h.ranges.getLast? = some r → r.stop = h.stop) ∧
      (∀ r ∈ h.ranges, r.stop.time = r.start.time + r.intervals.length * interval ∧
        (∀ iv, r.intervals[0]? = some iv → iv.start = r.start) ∧
        (∀ iv, r.intervals.getLast? = some iv → iv.stop = r.stop)) ∧
      (limit ≠ 0 → (∀ r ∈ h.ranges, r.intervals.length ≤ limit) ∧
        ∀ x r, x + 1 < h.ranges.length → h.ranges[x]? = some r → r.intervals.length = limit) ∧
      (limit = 0 → h.ranges.length = 1) := by
  obtain ⟨hi, hs⟩ := calc_ok_inv hr
  obtain ⟨N, L, n, hN, hL1, hL2, hx, hn1, hcov, hn0, htight, hr'⟩ :=
    calc_eq now start stop interval limit hs hi
  rw [hr] at hr'; cases hr'
  have hcover : min (n * L) N = N := by
    by_cases hl : limit = 0
    · have : (N : Int) < 4294967296 := by
        rcases hlim with h | h
        · exact absurd hl h
        · rw [hN, add_sub_cancel_left] at h
          by_contra hc
          have := Int.mul_le_mul_of_nonneg_right (show (4294967296 : Int) ≤ N by omega) (le_of_lt hi)
          omega
      have h1 := hL2 hl
      rw [toUint32, Int.emod_eq_of_lt (by omega) this] at h1
      have : n = 1 := hn0 hl
      subst this
      omega
    · have := hcov hl; omega
  have hflat := flat_ranges (roundT interval start) interval N L n hx
  rw [hcover] at hflat
  have hrg : ∀ x r, (tab n (rangeAt (roundT interval start) interval N L))[x]? = some r →
      x < n ∧ r = rangeAt (roundT interval start) interval N L x := by
    intro x r hxr
    rw [tab_getElem?] at hxr
    split at hxr
    · next h => exact ⟨h, (Option.some.inj hxr).symm⟩
    · cases hxr
  refine ⟨N, hN, ?_, ?_, ⟨rfl, rfl⟩, ?_, ?_, ?_, ?_, ?_, ?_, ?_, ?_⟩
  · rw [hflat, tab_length]
  · intro k iv hk
    rw [hflat, tab_getElem?] at hk
    split at hk
    · cases hk
      refine ⟨⟨rfl, rfl⟩, ⟨?_, ?_⟩, rfl⟩
      · simp [ivAt, CreateIntervalTime]
      · simp [ivAt, CreateIntervalTime]
    · cases hk
  · rw [hcover, hN]; exact ⟨rfl, rfl⟩
  · intro h0
    have := congrArg List.length h0
    simp at this; omega
  · intro r h0
    obtain ⟨_, rfl⟩ := hrg 0 r h0
    simp [rangeAt]
  · intro x r r' h1 h2
    obtain ⟨_, rfl⟩ := hrg x r h1
    obtain ⟨hx2, rfl⟩ := hrg (x + 1) r' h2
    have := hx (x + 1) hx2
    simp only [rangeAt]
    rw [Nat.min_eq_left this]
  · intro r h0
    rw [List.getLast?_eq_getElem?, tab_length] at h0
    obtain ⟨_, rfl⟩ := hrg _ r h0
    simp only [rangeAt]
    rw [show n - 1 + 1 = n by omega]
  · intro r hr
    obtain ⟨x, hxr⟩ := List.mem_iff_getElem?.mp hr
    obtain ⟨hxn, rfl⟩ := hrg x r hxr
    have hxL := hx x hxn
    have hs : (x + 1) * L = x * L + L := by ring
    have hm : min ((x + 1) * L) N = x * L + min L (N - x * L) := by omega
    refine ⟨?_, ?_, ?_⟩
    · simp only [rangeAt, tab_length, CreateIntervalTime, hm]
      push_cast; ring
    · intro iv h0
      simp only [rangeAt] at h0
      rw [tab_getElem?] at h0
      split at h0
      · cases h0; simp [ivAt, rangeAt]
      · cases h0
    · intro iv h0
      simp only [rangeAt] at h0
      rw [List.getLast?_eq_getElem?, tab_length, tab_getElem?] at h0
      split at h0
      · next hlt =>
        cases h0
        simp only [ivAt, rangeAt]
        rw [hm]
        congr 1
        rw [show min L (N - x * L) - 1 + 1 = min L (N - x * L) by omega]
        push_cast; ring
      · cases h0
  · intro hl
    have hL := hL1 hl
    subst hL
    constructor
    · intro r hr
      obtain ⟨x, hxr⟩ := List.mem_iff_getElem?.mp hr
      obtain ⟨hxn, rfl⟩ := hrg x r hxr
      simp [rangeAt]
    · intro x r hx1 hxr
      rw [tab_length] at hx1
      obtain ⟨hxn, rfl⟩ := hrg x r hxr
      have := hx (x + 1) hx1
      have hs : (x + 1) * L = x * L + L := by ring
      simp only [rangeAt, tab_length]
      omega
  · intro hl
    simp [hn0 hl]

/-- A request with limit 3: seven one-minute intervals in three ranges. -/
example : ∃ h, CalculateCandleDateRanges 0 (60 * nsec) (480 * nsec) (60 * nsec) 3 = .ok (.ok h) ∧
    (h.ranges.map (·.intervals.length) == [3, 3, 1] && h.stop.time == 480 * nsec) = true :=
  succeeds_spec (by decide +kernel)

/-- **C13 is false for limit 0 and 2^32 intervals** (a `uint32` conversion drops them): for *every*
valid request of exactly 2^32 intervals without limit, the holder has no interval at all and ends
where it starts. -/
theorem C13_limit_zero_refuted (now start stop interval : Int) (h : IntervalRangeHolder)
    (hr : CalculateCandleDateRanges now start stop interval 0 = .ok (.ok h))
    (hbig : roundT interval stop - roundT interval start = 4294967296 * interval) :
    h.ranges.flatMap (·.intervals) = [] ∧ h.stop = h.start ∧ h.stop.time ≠ roundT interval stop := by
  obtain ⟨hi, hs⟩ := calc_ok_inv hr
  obtain ⟨N, L, n, hN, hL1, hL2, hx, hn1, hcov, hn0, htight, hr'⟩ :=
    calc_eq now start stop interval 0 hs hi
  rw [Nat.cast_zero, hr] at hr'; cases hr'
  have hNv : (N : Int) = 4294967296 := by
    rw [hN, add_sub_cancel_left] at hbig
    exact Int.eq_of_mul_eq_mul_right (by omega) hbig
  have hL : L = 0 := by
    have := hL2 rfl
    rw [hNv] at this
    have h2 : toUint32 4294967296 = 0 := by decide
    omega
  subst hL
  refine ⟨?_, ?_, ?_⟩
  · rw [flat_ranges _ _ _ _ _ hx]; simp
  · simp
  · simp only [Nat.mul_zero, Nat.zero_min, Nat.cast_zero, zero_mul, add_zero, CreateIntervalTime]
    rw [hN, hNv]
    have : 0 < 4294967296 * interval := by omega
    omega

/-- Such a request exists: 100 ms candles over 4967.3 days. -/
example : ∃ h, CalculateCandleDateRanges 0 nsec (429496730600000000) 100000000 0 = .ok (.ok h) ∧
    (roundT 100000000 429496730600000000 - roundT 100000000 nsec == 4294967296 * 100000000) = true :=
  succeeds_spec (by decide +kernel)

/-! ## C14 -/

/-- The holder after marking: interval `j` of range `i` gets `HasData = M i j`. -/
def marked (M : Nat → Nat → Bool) (h : IntervalRangeHolder) : IntervalRangeHolder :=
  { h with ranges := h.ranges.mapIdx fun i r =>
      { r with intervals := r.intervals.mapIdx fun j iv => { iv with hasData := M i j } } }

theorem scanIntervals_sound {tu : Int} {l : List IntervalData} (h : scanIntervals tu l = some true) :
    ∃ iv ∈ l, iv.start.ticks ≤ tu ∧ tu < iv.stop.ticks ∧ iv.hasData = true := by
  induction l with
  | nil => cases h
  | cons a l ih =>
    unfold scanIntervals at h
    split at h
    · next hc => exact ⟨a, List.mem_cons_self, hc.1, hc.2, Option.some.inj h⟩
    · obtain ⟨iv, h1, h2⟩ := ih h
      exact ⟨iv, List.mem_cons_of_mem _ h1, h2⟩

theorem scanRanges_sound {tu : Int} {l : List IntervalRange} (h : scanRanges tu l = true) :
    ∃ r ∈ l, ∃ iv ∈ r.intervals, iv.start.ticks ≤ tu ∧ tu < iv.stop.ticks ∧ iv.hasData = true := by
  induction l with
  | nil => cases h
  | cons r l ih =>
    unfold scanRanges at h
    split at h
    · obtain ⟨r', h1, h2⟩ := ih h
      exact ⟨r', List.mem_cons_of_mem _ h1, h2⟩
    · split at h
      · next b hb =>
        subst h
        exact ⟨r, List.mem_cons_self, scanIntervals_sound hb⟩
      · obtain ⟨r', h1, h2⟩ := ih h
        exact ⟨r', List.mem_cons_of_mem _ h1, h2⟩

theorem scanIntervals_complete {tu : Int} {l : List IntervalData}
    (hall : ∀ iv ∈ l, iv.start.ticks ≤ tu → tu < iv.stop.ticks → iv.hasData = true) :
    scanIntervals tu l = none ∨ scanIntervals tu l = some true := by
  induction l with
  | nil => exact .inl rfl
  | cons a l ih =>
    unfold scanIntervals
    split
    · next hc => right; rw [hall a List.mem_cons_self hc.1 hc.2]
    · exact ih fun iv hiv => hall iv (List.mem_cons_of_mem _ hiv)

theorem scanIntervals_some {tu : Int} {l : List IntervalData} {iv : IntervalData} (hm : iv ∈ l)
    (h1 : iv.start.ticks ≤ tu) (h2 : tu < iv.stop.ticks) : scanIntervals tu l ≠ none := by
  induction l with
  | nil => cases hm
  | cons a l ih =>
    unfold scanIntervals
    split
    · simp
    · next hc =>
      rcases List.mem_cons.mp hm with rfl | hm
      · exact absurd ⟨h1, h2⟩ hc
      · exact ih hm

theorem scanRanges_complete {tu : Int} {l : List IntervalRange}
    (hall : ∀ r ∈ l, ∀ iv ∈ r.intervals, iv.start.ticks ≤ tu → tu < iv.stop.ticks → iv.hasData = true)
    (hex : ∃ r ∈ l, r.start.ticks ≤ tu ∧ tu < r.stop.ticks ∧
      ∃ iv ∈ r.intervals, iv.start.ticks ≤ tu ∧ tu < iv.stop.ticks) :
    scanRanges tu l = true := by
  induction l with
  | nil => obtain ⟨r, hr, _⟩ := hex; cases hr
  | cons a l ih =>
    unfold scanRanges
    have hall' : ∀ r ∈ l, ∀ iv ∈ r.intervals, iv.start.ticks ≤ tu → tu < iv.stop.ticks →
      iv.hasData = true := fun r hr => hall r (List.mem_cons_of_mem _ hr)
    obtain ⟨r, hr, h1, h2, iv, hiv, h3, h4⟩ := hex
    split
    · next hc =>
      rcases List.mem_cons.mp hr with rfl | hr
      · omega
      · exact ih hall' ⟨r, hr, h1, h2, iv, hiv, h3, h4⟩
    · rcases scanIntervals_complete (tu := tu) (hall a List.mem_cons_self) with h | h
      · rw [h]
        rcases List.mem_cons.mp hr with rfl | hr
        · exact absurd h (scanIntervals_some hiv h3 h4)
        · exact ih hall' ⟨r, hr, h1, h2, iv, hiv, h3, h4⟩
      · rw [h]

theorem unix_le_iff {a t : Int} (h : nsec ∣ a) : unix a ≤ unix t ↔ a ≤ t := by
  obtain ⟨q, rfl⟩ := h
  have hp : (0 : Int) < nsec := by decide
  unfold unix
  rw [Int.mul_ediv_cancel_left _ (by omega), Int.le_ediv_iff_mul_le hp, mul_comm]

theorem unix_lt_iff {a t : Int} (h : nsec ∣ a) : unix t < unix a ↔ t < a := by
  have := unix_le_iff (t := t) h
  omega

/-- The holder of `n` ranges (proof abbreviation; see `calc_eq`). -/
def holderAt (S interval : Int) (N L n : Nat) : IntervalRangeHolder where
  start := CreateIntervalTime S
  stop := CreateIntervalTime (S + ((min (n * L) N : Nat) : Int) * interval)
  ranges := tab n (rangeAt S interval N L)
  limit := L

/-- **C14 (partial).** For every holder returned by `CalculateCandleDateRanges` with an interval of
whole seconds, every choice `M` of marked intervals and every instant `t` (nanoseconds):
`HasDataAtDate(t)` is true exactly when `t` lies in a marked interval. In particular it is false
everywhere while nothing is marked. Missing from C14: intervals that are not whole seconds, where the
claim is false (next theorem). -/
theorem C14_has_data_partial (now start stop interval : Int) (limit : Nat) (h : IntervalRangeHolder)
    (hr : CalculateCandleDateRanges now start stop interval limit = .ok (.ok h))
    (hsec : nsec ∣ interval) (M : Nat → Nat → Bool) (t : Int) :
    HasDataAtDate (marked M h) t = true ↔
      ∃ (i j : Nat) (r : IntervalRange) (iv : IntervalData), h.ranges[i]? = some r ∧
        r.intervals[j]? = some iv ∧ iv.start.time ≤ t ∧ t < iv.stop.time ∧ M i j = true := by
  obtain ⟨hi, hs⟩ := calc_ok_inv hr
  obtain ⟨N, L, n, hN, hL1, hL2, hx, hn1, hcov, hn0, htight, hr'⟩ :=
    calc_eq now start stop interval limit hs hi
  rw [hr] at hr'; cases hr'
  generalize hS : roundT interval start = S at *
  have hSd : nsec ∣ S := by
    have h1 := roundT_dvd hi start
    rw [hS] at h1
    have h2 : nsec ∣ zeroOffset := ⟨62135596800, by unfold zeroOffset; ring⟩
    exact (Int.dvd_add_left h2).mp (dvd_trans hsec h1)
  have hd : ∀ k : Int, nsec ∣ S + k * interval := fun k =>
    Int.dvd_add hSd (Dvd.dvd.mul_left hsec k)
  -- intervals of the holder
  have hiv : ∀ (i j : Nat) r iv, (tab n (rangeAt S interval N L))[i]? = some r →
      r.intervals[j]? = some iv → i < n ∧ j < min L (N - i * L) ∧
      r = rangeAt S interval N L i ∧ iv = ivAt S interval (i * L + j) := by
    intro i j r iv h1 h2
    rw [tab_getElem?] at h1
    split at h1
    · next hin =>
      cases h1
      simp only [rangeAt] at h2
      rw [tab_getElem?] at h2
      split at h2
      · next hjn =>
        cases h2
        refine ⟨hin, hjn, rfl, ?_⟩
        unfold ivAt
        have a1 : S + ((i * L : Nat) : Int) * interval + (j : Int) * interval
            = S + ((i * L + j : Nat) : Int) * interval := by push_cast; ring
        have a2 : S + ((i * L : Nat) : Int) * interval + ((j + 1 : Nat) : Int) * interval
            = S + ((i * L + j + 1 : Nat) : Int) * interval := by push_cast; ring
        rw [a1, a2]
      · cases h2
    · cases h1
  -- marked ones
  have hmk : ∀ r' ∈ (marked M (holderAt S interval N L n)).ranges, ∀ iv' ∈ r'.intervals,
      ∃ (i j : Nat) (r : IntervalRange) (iv : IntervalData),
        (tab n (rangeAt S interval N L))[i]? = some r ∧ r.intervals[j]? = some iv ∧
        r'.start = r.start ∧ r'.stop = r.stop ∧ iv' = { iv with hasData := M i j } := by
    intro r' hr' iv' hiv'
    obtain ⟨i, hi'⟩ := List.mem_iff_getElem?.mp hr'
    simp only [marked, holderAt, List.getElem?_mapIdx] at hi'
    cases hri : (tab n (rangeAt S interval N L))[i]? with
    | none => rw [hri] at hi'; cases hi'
    | some r =>
      rw [hri] at hi'
      cases hi'
      obtain ⟨j, hj'⟩ := List.mem_iff_getElem?.mp hiv'
      simp only [List.getElem?_mapIdx] at hj'
      cases hrj : r.intervals[j]? with
      | none => rw [hrj] at hj'; cases hj'
      | some iv =>
        rw [hrj] at hj'
        cases hj'
        exact ⟨i, j, r, iv, hri, hrj, rfl, rfl, rfl⟩
  have hpos : (0 : Int) < interval := hi
  have hin : ∀ g : Nat, (ivAt S interval g).start.ticks ≤ unix t ∧ unix t < (ivAt S interval g).stop.ticks
      ↔ S + (g : Int) * interval ≤ t ∧ t < S + ((g + 1 : Nat) : Int) * interval := by
    intro g
    simp only [ivAt, CreateIntervalTime]
    rw [unix_le_iff (hd _), unix_lt_iff (hd _)]
  constructor
  · intro hT
    unfold HasDataAtDate at hT
    simp only at hT
    split at hT
    · cases hT
    · obtain ⟨r', hr', iv', hiv', h1, h2, h3⟩ := scanRanges_sound hT
      obtain ⟨i, j, r, iv, hri, hrj, _, _, rfl⟩ := hmk r' hr' iv' hiv'
      obtain ⟨_, _, rfl, rfl⟩ := hiv i j r iv hri hrj
      have := (hin (i * L + j)).mp ⟨h1, h2⟩
      exact ⟨i, j, _, _, hri, hrj, this.1, this.2, h3⟩
  · rintro ⟨i, j, r, iv, hri, hrj, h1, h2, hM⟩
    obtain ⟨hin', hjn, hreq, hiveq⟩ := hiv i j r iv hri hrj
    have hixL := hx i hin'
    subst hreq hiveq
    change S + ((i * L + j : Nat) : Int) * interval ≤ t at h1
    change t < S + ((i * L + j + 1 : Nat) : Int) * interval at h2
    have hjl : j < L := by omega
    have hmul : ∀ {a b : Nat}, a ≤ b → (a : Int) * interval ≤ (b : Int) * interval := fun hab =>
      Int.mul_le_mul_of_nonneg_right (by omega) (le_of_lt hi)
    have hsl : (i + 1) * L = i * L + L := by ring
    have htot : i * L + j + 1 ≤ min (n * L) N := by
      have : (i + 1) * L ≤ n * L := Nat.mul_le_mul_right _ hin'
      omega
    unfold HasDataAtDate
    simp only
    rw [if_neg]
    · apply scanRanges_complete
      · intro r' hr' iv' hiv' a1 a2
        obtain ⟨i', j', r2, iv2, b1, b2, _, _, rfl⟩ := hmk r' hr' iv' hiv'
        obtain ⟨c1, c2, rfl, rfl⟩ := hiv i' j' r2 iv2 b1 b2
        have hu := (hin (i' * L + j')).mp ⟨a1, a2⟩
        -- the same global position
        have hg : i' * L + j' = i * L + j := by
          rcases Nat.lt_trichotomy (i' * L + j') (i * L + j) with hlt | heq | hgt
          · have := hmul (a := i' * L + j' + 1) (b := i * L + j) hlt; omega
          · exact heq
          · have := hmul (a := i * L + j + 1) (b := i' * L + j') hgt; omega
        have hj' : j' < L := by omega
        have e1 : i' = i := by
          have h1 : (i' * L + j') / L = i' := by
            rw [Nat.mul_comm, Nat.mul_add_div (by omega), Nat.div_eq_of_lt hj']; rfl
          have h2 : (i * L + j) / L = i := by
            rw [Nat.mul_comm, Nat.mul_add_div (by omega), Nat.div_eq_of_lt hjl]; rfl
          rw [← h1, hg, h2]
        subst e1
        have e2 : j' = j := by omega
        subst e2
        exact hM
      · have hmem : (marked M (holderAt S interval N L n)).ranges[i]?
            = some { rangeAt S interval N L i with
                intervals := (rangeAt S interval N L i).intervals.mapIdx
                  fun j iv => { iv with hasData := M i j } } := by
          simp only [marked, holderAt, List.getElem?_mapIdx, hri]; rfl
        refine ⟨_, List.mem_of_getElem? hmem, ?_, ?_, { ivAt S interval (i * L + j) with hasData := M i j },
          ?_, ?_⟩
        · show unix (S + ((i * L : Nat) : Int) * interval) ≤ unix t
          rw [unix_le_iff (hd _)]
          have := hmul (a := i * L) (b := i * L + j) (by omega); omega
        · show unix t < unix (S + ((min ((i + 1) * L) N : Nat) : Int) * interval)
          rw [unix_lt_iff (hd _)]
          have := hmul (a := i * L + j + 1) (b := min ((i + 1) * L) N) (by omega); omega
        · refine List.mem_of_getElem? (i := j) ?_
          simp only [List.getElem?_mapIdx, hrj]; rfl
        · exact (hin (i * L + j)).mpr ⟨h1, h2⟩
    · simp only [marked, CreateIntervalTime, not_or, not_lt]
      constructor
      · rw [unix_le_iff hSd]
        have := hmul (a := 0) (b := i * L + j) (by omega)
        simp only [Nat.cast_zero, zero_mul] at this
        omega
      · have : unix t < unix (S + ((min (n * L) N : Nat) : Int) * interval) := by
          rw [unix_lt_iff (hd _)]
          have := hmul htot; omega
        omega

/-- Two marked minutes out of five, limit 2: data at 0:02:30, none at 0:03:30. -/
example : ∃ h, CalculateCandleDateRanges 0 (60 * nsec) (360 * nsec) (60 * nsec) 2 = .ok (.ok h) ∧
    (HasDataAtDate (marked (fun i j => i == 0 && j == 1) h) (150 * nsec) &&
      !HasDataAtDate (marked (fun i j => i == 0 && j == 1) h) (210 * nsec)) = true :=
  succeeds_spec (by decide +kernel)

example : nsec ∣ 60 * nsec := by decide

/-- **C14 is false for 100 ms intervals** (a supported interval, kline_type.go:11): with the first
interval marked, `HasDataAtDate` is false at its own start. -/
theorem C14_subsecond_refuted :
    ∃ h, CalculateCandleDateRanges 0 nsec (2 * nsec) 100000000 0 = .ok (.ok h) ∧
      (h.ranges.flatMap (·.intervals))[0]? =
        some ⟨⟨nsec, 1⟩, ⟨nsec + 100000000, 1⟩, false⟩ ∧
      HasDataAtDate (marked (fun i j => i == 0 && j == 0) h) nsec = false := by
  obtain ⟨h, h1, h2⟩ := succeeds_spec (r := CalculateCandleDateRanges 0 nsec (2 * nsec) 100000000 0)
    (p := fun h => decide ((h.ranges.flatMap (·.intervals))[0]? =
        some (IntervalData.mk ⟨nsec, 1⟩ ⟨nsec + 100000000, 1⟩ false)) &&
      !HasDataAtDate (marked (fun i j => i == 0 && j == 0) h) nsec) (by decide +kernel)
  simp only [Bool.and_eq_true, decide_eq_true_eq, Bool.not_eq_true'] at h2
  exact ⟨h, h1, h2.1, h2.2⟩

end Verif.Props
