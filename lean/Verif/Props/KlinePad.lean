import Verif.Klines.Padding
import Verif.Props.KlineConvert

/-!
# Filling gaps (C75, C76)
-/

set_option linter.unusedSectionVars false

namespace Verif.Props
open Verif Verif.Klines GoFloat

variable {F : Type} [GoFloat F]

/-- `c` is what belongs into slot `x` of a grid that starts at `start` (nanoseconds) and has slots of `sec` seconds:
the candle of `cs` with the time of the slot, or an empty candle with that time if there is none. -/
def InSlot (cs : List (Candle F)) (start sec : Int) (x : Nat) (c : Candle F) : Prop :=
  c.timeUnix = unix start + x * sec ∧
    (c ∈ cs ∨ ((∀ d ∈ cs, d.timeUnix ≠ unix start + x * sec) ∧ c = Candle.zero (unix start + x * sec)))

/-- Some candle before the last of `k` slots does not lie at the time of a slot. -/
def OffGrid (cs : List (Candle F)) (start sec : Int) (k : Nat) : Prop :=
  ∃ c ∈ cs, c.timeUnix < unix start + ((k - 1 : Nat) : Int) * sec ∧ ∀ x : Nat, c.timeUnix ≠ unix start + x * sec

theorem misaligned_iff {cs : List (Candle F)} {start sec : Int} {k : Nat} :
    Misaligned cs start (sec * nsec) k ↔ OffGrid cs start sec k := by
  simp only [Misaligned, OffGrid, slotTime_secs]

theorem inSlot_slotOf (cs : List (Candle F)) (start sec : Int) (x : Nat) :
    InSlot cs start sec x (slotOf cs start (sec * nsec) x) := by
  unfold slotOf InSlot
  rw [slotTime_secs]
  cases hf : cs.find? (fun c => c.timeUnix = unix start + x * sec) with
  | none =>
    refine ⟨rfl, .inr ⟨fun d hd => ?_, rfl⟩⟩
    simpa using List.find?_eq_none.mp hf d hd
  | some c =>
    exact ⟨by simpa using List.find?_some hf, .inl (List.mem_of_find?_eq_some hf)⟩

theorem exists_tab_candles (cs : List (Candle F)) : ∃ x, cs = tab cs.length x :=
  ⟨fun i => cs[i]?.getD (Candle.zero 0), List.ext_getElem? fun i => by
    by_cases h : i < cs.length
    · rw [tab_getElem?_lt h]; simp [h]
    · rw [List.getElem?_eq_none (by omega), List.getElem?_eq_none (by simpa using h)]⟩

/-- The loop of `addPadding`, for any list with strictly increasing times. -/
theorem padLoop_list {sec : Int} (hsec : 0 < sec) {cs : List (Candle F)}
    (hcs : cs.Pairwise fun a b => a.timeUnix < b.timeUnix) (start : Int) (k : Nat) :
    ∃ st, goFor 0 k (.ok (0, start, List.replicate k none)) (fun x st => padStep (sec * nsec) cs x st) = .ok st ∧
      ((st = .error .notAligned ∧ 1 ≤ k ∧ OffGrid cs start sec k) ∨
       (∃ t a, st = .ok (t, a, tab k fun x => some (slotOf cs start (sec * nsec) x))) ∧
         (1 ≤ k → ¬ OffGrid cs start sec k)) := by
  obtain ⟨c, hc⟩ := exists_tab_candles cs
  generalize cs.length = m at hc
  subst hc
  have := padLoop_spec (m := m) (c := c) hsec (fun i j hij hj => by
    have := List.pairwise_iff_getElem.mp hcs i j (by simp; omega) (by simpa using hj) hij
    simpa [tab] using this) start k
  simpa only [misaligned_iff] using this

theorem addPadding_run (e : Item F) {sec : Int} (hsec : 0 < sec) (hi : e.interval = sec * nsec)
    (hcs : e.candles.Pairwise fun a b => a.timeUnix < b.timeUnix) (start stop : Int) (k : Nat)
    (hw : 0 < stop - start) (hk : (stop - start).tdiv e.interval = k) (purge : Bool) :
    ∃ st, addPadding (some e) start stop purge = padFinish e purge st ∧
      ((st = .error .notAligned ∧ 1 ≤ k ∧ OffGrid e.candles start sec k) ∨
       (∃ t a, st = .ok (t, a, tab k fun x => some (slotOf e.candles start (sec * nsec) x))) ∧
         (1 ≤ k → ¬ OffGrid e.candles start sec k)) := by
  have hi0 : 0 < e.interval := by rw [hi]; exact mul_pos hsec (by decide)
  obtain ⟨st, h1, h2⟩ := padLoop_list hsec hcs start k
  refine ⟨st, ?_, h2⟩
  unfold addPadding
  simp only
  rw [if_neg (by omega), if_neg (by omega), goDiv, if_neg (by omega), ok_bind, hk, mk_nat, ok_bind,
    List.length_replicate, hi, h1, ok_bind]

theorem window_pos {start stop d : Int} (hd : 0 < d) {k : Nat} (hk : (stop - start).tdiv d = k) (hk1 : 1 ≤ k) :
    0 < stop - start := by
  by_contra h
  have h2 : (-(stop - start)).tdiv d = -k := by rw [Int.neg_tdiv, hk]
  have h3 : 0 ≤ (-(stop - start)).tdiv d := Int.tdiv_nonneg (by omega) hd.le
  omega

/-- **C75.** For an item with candles of strictly increasing times and an interval of whole seconds, and a window of
`k >= 1` intervals: `addPadding` without purging reports `errCandleOpenTimeIsNotUTCAligned` if some candle before the
last slot lies off the grid; otherwise the item afterwards has exactly `k` candles, the `x`-th of them the candle with
the time of slot `x`, or an empty one with that time if there is none. Everything else in the item stays. -/
theorem C75_padding (e : Item F) {sec : Int} (hsec : 0 < sec) (hi : e.interval = sec * nsec)
    (hcs : e.candles.Pairwise fun a b => a.timeUnix < b.timeUnix) (start stop : Int) (k : Nat)
    (hk : (stop - start).tdiv e.interval = k) (hk1 : 1 ≤ k) :
    (OffGrid e.candles start sec k → addPadding (some e) start stop false = .ok (.error .notAligned)) ∧
    (¬ OffGrid e.candles start sec k → ∃ cs, addPadding (some e) start stop false = .ok (.ok { e with candles := cs }) ∧
      cs.length = k ∧ ∀ (x : Nat) c, cs[x]? = some c → InSlot e.candles start sec x c) := by
  have hi0 : 0 < e.interval := by rw [hi]; exact mul_pos hsec (by decide)
  obtain ⟨st, h1, h2⟩ := addPadding_run e hsec hi hcs start stop k (window_pos hi0 hk hk1) hk false
  rcases h2 with ⟨rfl, -, h2⟩ | ⟨⟨t, a, rfl⟩, h2⟩
  · exact ⟨fun _ => h1, fun h => absurd h2 h⟩
  · refine ⟨fun h => absurd h (h2 hk1), fun _ => ?_⟩
    refine ⟨tab k fun x => slotOf e.candles start (sec * nsec) x, ?_, tab_length _ _, fun x c hc => ?_⟩
    · rw [h1]; simp only [padFinish, Bool.false_eq_true, if_false, pure_eq_ok, ok_bind, allSlots_tab]
    · have hx : x < k := by simpa using (List.getElem?_eq_some_iff.mp hc).1
      rw [tab_getElem?_lt hx] at hc
      cases hc
      exact inSlot_slotOf _ _ _ _

/-- **C75.** With purging the outcome is the same, except that the last candle is dropped if its volume, open, high,
low and close are all 0. -/
theorem C75_padding_purge (e : Item F) {sec : Int} (hsec : 0 < sec) (hi : e.interval = sec * nsec)
    (hcs : e.candles.Pairwise fun a b => a.timeUnix < b.timeUnix) (start stop : Int) (k : Nat)
    (hk : (stop - start).tdiv e.interval = k) (hk1 : 1 ≤ k) {cs : List (Candle F)}
    (h : addPadding (some e) start stop false = .ok (.ok { e with candles := cs })) :
    ∃ ini last, cs = ini ++ [last] ∧
      addPadding (some e) start stop true = .ok (.ok { e with candles :=
        if (last.volume ==. fl 0) = true ∧ (last.open_ ==. fl 0) = true ∧ (last.high ==. fl 0) = true ∧
          (last.low ==. fl 0) = true ∧ (last.close ==. fl 0) = true then ini else cs }) := by
  have hi0 : 0 < e.interval := by rw [hi]; exact mul_pos hsec (by decide)
  obtain ⟨k, rfl⟩ : ∃ k', k = k' + 1 := ⟨k - 1, by omega⟩
  obtain ⟨st, h1, h2⟩ := addPadding_run e hsec hi hcs start stop _ (window_pos hi0 hk hk1) hk false
  obtain ⟨st', h1', h2'⟩ := addPadding_run e hsec hi hcs start stop _ (window_pos hi0 hk hk1) hk true
  rcases h2 with ⟨rfl, -, h2⟩ | ⟨⟨t, a, rfl⟩, h2⟩
  · rw [h1] at h; cases h
  rcases h2' with ⟨-, -, h2'⟩ | ⟨⟨t', a', rfl⟩, -⟩
  · exact absurd h2' (h2 hk1)
  rw [h1] at h
  simp only [padFinish, Bool.false_eq_true, if_false, pure_eq_ok, ok_bind, allSlots_tab] at h
  have hcs' : cs = tab (k + 1) fun x => slotOf e.candles start (sec * nsec) x := by
    have := congrArg Item.candles (Except.ok.inj (Except.ok.inj h))
    exact this.symm
  generalize slotOf e.candles start (sec * nsec) = f at hcs' h1'
  have e1 : ((k + 1 : Nat) : Int) - 1 = (k : Int) := by omega
  refine ⟨tab k f, f k, by rw [hcs', tab_succ], ?_⟩
  rw [h1']
  have hsl : slice (tab (k + 1) fun x => some (f x)) 0 (k : Int) = .ok (tab k fun x => some (f x)) := by
    have := slice_tab (n := k + 1) (lo := 0) (hi := k) (fun x => some (f x)) (by omega) (by omega)
    simpa only [Nat.sub_zero, Nat.zero_add, Nat.cast_zero] using this
  simp only [padFinish, if_true, tab_length, e1, idx_tab (show k < k + 1 by omega), ok_bind, derefSlot, pure_eq_ok, hsl]
  by_cases hz : ((f k).volume ==. fl 0) = true ∧ ((f k).open_ ==. fl 0) = true ∧ ((f k).high ==. fl 0) = true ∧
      ((f k).low ==. fl 0) = true ∧ ((f k).close ==. fl 0) = true
  · have : emptyCandle (f k) = true := by simp [emptyCandle, hz]
    simp only [this, if_true, ok_bind, allSlots_tab, hz, and_self]
  · have : ¬ emptyCandle (f k) = true := by
      simp only [emptyCandle, Bool.and_eq_true]; tauto
    rw [if_neg this, if_neg hz]
    simp only [ok_bind, allSlots_tab, hcs']

/-- **C75.** The remaining outcomes: nil item, interval or window not positive; and with purging a window shorter than
one interval panics. -/
theorem C75_padding_errors (start stop : Int) (purge : Bool) :
    addPadding (none : Option (Item F)) start stop purge = .ok (.error .nilKline) ∧
    (∀ e : Item F, e.interval ≤ 0 → addPadding (some e) start stop purge = .ok (.error .invalidInterval)) ∧
    (∀ e : Item F, 0 < e.interval → stop ≤ start → addPadding (some e) start stop purge = .ok (.error .noWindow)) ∧
    (∀ e : Item F, start < stop → stop - start < e.interval → addPadding (some e) start stop true = .error .index) := by
  refine ⟨rfl, fun e h => ?_, fun e h1 h2 => ?_, fun e h1 h2 => ?_⟩
  · unfold addPadding; simp only [if_pos h]; rfl
  · unfold addPadding; simp only
    rw [if_neg (by omega), if_pos (by omega)]; rfl
  · unfold addPadding; simp only
    rw [if_neg (by omega), if_neg (by omega), goDiv, if_neg (by omega), ok_bind,
      Int.tdiv_eq_zero_of_lt (by omega) (by omega)]
    rfl

/-! ## C76: padding, then upscaling -/

/-- **C76.** A series that `addPadding` has filled can be upscaled: for a window of `k` intervals that starts on a whole
second after the epoch, and every factor `r` from 2 to `k`, `ConvertToNewInterval` of the padded item succeeds - it
neither panics nor reports missing candles. -/
theorem C76_padded_upscales (now : Int) (e : Item F) {sec : Int} (hsec : 0 < sec) (hi : e.interval = sec * nsec)
    (hcs : e.candles.Pairwise fun a b => a.timeUnix < b.timeUnix) (t0 stop : Int) (ht0 : 0 < t0) (k r : Nat)
    (hk : (stop - ofUnix t0).tdiv e.interval = k) (hr : 2 ≤ r) (hrk : r ≤ k) {e' : Item F}
    (h : addPadding (some e) (ofUnix t0) stop false = .ok (.ok e')) :
    ∃ it, ConvertToNewInterval now (some e') (r * e'.interval) = .ok (.ok it) := by
  obtain ⟨h1, h2⟩ := C75_padding e hsec hi hcs (ofUnix t0) stop k hk (by omega)
  have hoff : ¬ OffGrid e.candles (ofUnix t0) sec k := fun hoff => by rw [h1 hoff] at h; cases h
  obtain ⟨cs, h3, hlen, hsl⟩ := h2 hoff
  rw [h3] at h
  cases h
  have hu : unix (ofUnix t0) = t0 := by unfold unix ofUnix; exact Int.mul_ediv_cancel _ (by decide)
  have hns : (0 : Int) < nsec := by decide
  have hi0 : 0 < e.interval := by rw [hi]; exact mul_pos hsec hns
  have hfirst : cs.head? = some (cs[0]'(by omega)) := by rw [List.head?_eq_getElem?, List.getElem?_eq_getElem]
  have hlast : cs.getLast? = some (cs[k - 1]'(by omega)) := by
    rw [List.getLast?_eq_getElem?, show cs.length - 1 = k - 1 by omega, List.getElem?_eq_getElem]
  have tf : (cs[0]'(by omega)).timeUnix = t0 := by
    have := (hsl 0 _ (List.getElem?_eq_getElem (by omega))).1
    rw [this, hu]; simp
  have tl : (cs[k - 1]'(by omega)).timeUnix = t0 + ((k - 1 : Nat) : Int) * sec := by
    have := (hsl (k - 1) _ (List.getElem?_eq_getElem (by omega))).1
    rw [this, hu]
  have hset : ∀ t : Int, 0 < t → ¬ unset t := by
    intro t ht
    simp only [unset, zeroTime, zeroOffset]
    have : (0 : Int) < 62135596800 * nsec := by decide
    omega
  have hks : 0 ≤ ((k - 1 : Nat) : Int) * sec := mul_nonneg (by omega) hsec.le
  obtain ⟨-, res, h4, h5, -⟩ := C16_errors_partial now { e with candles := cs } (r * e.interval) _ _ hfirst hlast
    ⟨hset _ (by rw [tf]; exact mul_pos ht0 hns), hset _ (by
      rw [tl]; exact add_pos (mul_pos (by omega) hns) hi0)⟩
  have hgood : GoodRequest { e with candles := cs } (cs[0]'(by omega)) (cs[k - 1]'(by omega)) (r * e.interval) := by
    refine ⟨hi0, ?_, Dvd.intro_left _ rfl, ?_, ?_⟩
    · show e.interval < r * e.interval
      have : 2 * e.interval ≤ (r : Int) * e.interval := mul_le_mul_of_nonneg_right (by omega) hi0.le
      omega
    · show (ofUnix (cs[k - 1]'(by omega)).timeUnix + e.interval - ofUnix (cs[0]'(by omega)).timeUnix).tdiv e.interval = (cs.length : Int)
      rw [tf, tl, hlen, hi, show ofUnix (t0 + ((k - 1 : Nat) : Int) * sec) + sec * nsec - ofUnix t0 = (k : Int) * (sec * nsec) by
        unfold ofUnix
        rw [Int.natCast_sub (by omega)]
        push_cast; ring]
      exact Int.mul_tdiv_cancel _ (by rw [← hi]; omega)
    · show (r : Int) * e.interval ≤ (cs.length : Int) * e.interval
      rw [hlen]
      exact mul_le_mul_of_nonneg_right (by omega) hi0.le
  obtain ⟨it, hit⟩ := h5.mpr hgood
  rw [hit] at h4
  exact ⟨it, h4⟩

/-! ## The hypotheses are met -/

/-- Candles at 60 and 180 seconds, minute interval. -/
def gapItem : Item (XF ℚ) :=
  { exchange := "x", interval := 60 * nsec, symbol := "s", code := "c",
    candles := [Candle.zero 60, { Candle.zero 180 with open_ := .fin 1 }] }

example : gapItem.candles.Pairwise (fun a b => a.timeUnix < b.timeUnix) := by decide
example : ((300 : Int) * nsec - ofUnix 60).tdiv gapItem.interval = (4 : Nat) := by decide
example : ¬ OffGrid gapItem.candles (ofUnix 60) 60 4 := by
  rintro ⟨c, hc, -, h⟩
  simp only [gapItem, List.mem_cons, List.not_mem_nil, or_false] at hc
  rcases hc with rfl | rfl
  · exact h 0 (by decide)
  · exact h 2 (by decide)
example : OffGrid gapItem.candles (ofUnix 61) 60 4 :=
  ⟨Candle.zero 60, by simp [gapItem], by decide, fun x => by
    have : unix (ofUnix 61) = 61 := by decide
    rw [this]; show (60 : Int) ≠ _; omega⟩
example : ((addPadding (some gapItem) (ofUnix 60) (300 * nsec) false).toOption.bind Except.toOption).map
    (fun it => it.candles.map (·.timeUnix)) = some [60, 120, 180, 240] := by decide +kernel

end Verif.Props
