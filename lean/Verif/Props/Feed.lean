import Verif.Props.KlinePad
import Verif.Props.KlineAlias

/-!
# From a raw feed to a full series (C139)

A feed delivers candles out of order, some of them twice, some outside the wanted window. The package offers the steps
`RemoveDuplicates`, `RemoveOutsideRange`, `SortCandlesByTimestamp` and `addPadding`. Here they are put together.
-/

set_option linter.unusedSectionVars false

namespace Verif.Props
open Verif Verif.Klines GoFloat

variable {F : Type} [GoFloat F]

/-- The item `e` with its candles as values (the Go item after an operation that works by value). -/
def withCandles (e : ItemH) (cs : List (Candle F)) : Item F :=
  { exchange := e.exchange, interval := e.interval, symbol := e.symbol, code := e.code, candles := cs }

/-- The time of every slot lies in the range that `RemoveOutsideRange` keeps. -/
theorem slot_in_range {start stop sec : Int} (hsec : 0 < sec) {k : Nat} (hk : (stop - start).tdiv (sec * nsec) = k)
    {x : Nat} (hx : x < k) {c : Candle F} (hc : c.timeUnix = unix start + x * sec) : inRange start stop c := by
  have hns : (0 : Int) < nsec := by decide
  have hd : 0 < sec * nsec := mul_pos hsec hns
  have hw := window_pos hd hk (by omega)
  have h1 : (k : Int) * (sec * nsec) ≤ stop - start := by
    rw [← hk, Int.tdiv_eq_ediv_of_nonneg hw.le]; exact Int.ediv_mul_le _ hd.ne'
  have h2 : unix start + k * sec ≤ unix stop := by
    have : (start + (k * sec) * nsec) / nsec ≤ stop / nsec := Int.ediv_le_ediv hns (by rw [mul_assoc]; omega)
    rwa [Int.add_mul_ediv_right _ _ hns.ne'] at this
  have h3 : ((x : Int) + 1) * sec ≤ k * sec := mul_le_mul_of_nonneg_right (by omega) hsec.le
  have h4 : 0 ≤ (x : Int) * sec := mul_nonneg (by omega) hsec.le
  have h5 : ((x : Int) + 1) * sec = x * sec + sec := by ring
  exact ⟨by omega, .inl (by omega)⟩

theorem pairwise_lt_of_sorted {cs : List (Candle F)} (h : cs.Pairwise fun a b => ¬ b.timeUnix < a.timeUnix)
    (hn : (cs.map (·.timeUnix)).Nodup) : cs.Pairwise fun a b => a.timeUnix < b.timeUnix := by
  have h2 : cs.Pairwise fun a b => a.timeUnix ≠ b.timeUnix := by simpa [List.Nodup, List.pairwise_map] using hn
  exact (h.and h2).imp fun ⟨h3, h4⟩ => by omega

/-- **C139.** For every feed: after `RemoveDuplicates`, `RemoveOutsideRange(start, stop)` and a sort in ascending order
(which is `desc = true`, see C12), `addPadding(start, stop)` reports an error if some candle of the feed in the range and
before the last slot lies off the grid; otherwise the series has exactly one candle for each of the `k` slots of the
window: the first candle of the feed with the time of the slot, or an empty one if the feed has none. -/
theorem C139_feed (m : Mem F) (e : ItemH) (hv : m.Valid e) {sec : Int} (hsec : 0 < sec) (hi : e.interval = sec * nsec)
    (start stop : Int) (k : Nat) (hk : (stop - start).tdiv e.interval = k) (hk1 : 1 ≤ k) :
    ∃ m₁ e₁ m₂ e₂, RemoveDuplicates m e = .ok (m₁, e₁) ∧ RemoveOutsideRange m₁ e₁ start stop = .ok (m₂, e₂) ∧
      ∀ cs, SortCandlesByTimestamp true (m₂.shown e₂) cs →
        (OffGrid ((m.shown e).filter fun c => decide (inRange start stop c)) start sec k →
          addPadding (some (withCandles e cs)) start stop false = .ok (.error .notAligned)) ∧
        (¬ OffGrid ((m.shown e).filter fun c => decide (inRange start stop c)) start sec k →
          ∃ out, addPadding (some (withCandles e cs)) start stop false = .ok (.ok (withCandles e out)) ∧ out.length = k ∧
            ∀ x < k, out[x]? = some (((m.shown e).find? fun c => decide (c.timeUnix = unix start + x * sec)).getD
              (Candle.zero (unix start + x * sec)))) := by
  obtain ⟨m₁, e₁, hr₁, hv₁, -, hnd, hsub, hfirst, hall, -⟩ := C11_first_per_timestamp m e hv
  obtain ⟨m₂, e₂, hr₂, hsh₂, -, -, -, -⟩ := C09_filter m₁ e₁ hv₁ start stop
  refine ⟨m₁, e₁, m₂, e₂, hr₁, hr₂, fun cs hs => ?_⟩
  have hmem : ∀ c, c ∈ cs ↔ c ∈ m₁.shown e₁ ∧ inRange start stop c := by
    intro c
    rw [hs.1.mem_iff, hsh₂, List.mem_filter]; simp
  have hn₂ : ((m₂.shown e₂).map (·.timeUnix)).Nodup := by
    rw [hsh₂]; exact hnd.sublist (List.filter_sublist.map _)
  have hlt : cs.Pairwise fun a b => a.timeUnix < b.timeUnix :=
    pairwise_lt_of_sorted (by simpa using hs.2) ((hs.1.map _).nodup_iff.mpr hn₂)
  have hoff : OffGrid ((m.shown e).filter fun c => decide (inRange start stop c)) start sec k ↔ OffGrid cs start sec k := by
    constructor
    · rintro ⟨c, hc, h1, h2⟩
      rw [List.mem_filter] at hc
      obtain ⟨d, hd, hdt⟩ := hall c hc.1
      refine ⟨d, (hmem d).mpr ⟨hd, ?_⟩, by rw [hdt]; exact h1, by rw [hdt]; exact h2⟩
      have := of_decide_eq_true hc.2
      unfold inRange at this ⊢
      rwa [hdt]
    · rintro ⟨c, hc, h1, h2⟩
      obtain ⟨hc1, hc2⟩ := (hmem c).mp hc
      exact ⟨c, List.mem_filter.mpr ⟨hsub.subset hc1, decide_eq_true hc2⟩, h1, h2⟩
  obtain ⟨p1, p2⟩ := C75_padding (withCandles e cs) hsec hi hlt start stop k hk hk1
  rw [hoff]
  refine ⟨p1, fun h => ?_⟩
  obtain ⟨out, ho, hl, hsl⟩ := p2 h
  refine ⟨out, ho, hl, fun x hx => ?_⟩
  have hx' : x < out.length := by omega
  rw [List.getElem?_eq_getElem hx']
  obtain ⟨ht, h5 | ⟨h5, h6⟩⟩ := hsl x _ (List.getElem?_eq_getElem hx')
  · obtain ⟨h7, -⟩ := (hmem _).mp h5
    have := hfirst _ h7
    rw [ht] at this
    rw [this]; rfl
  · have : (m.shown e).find? (fun c => decide (c.timeUnix = unix start + x * sec)) = none := by
      rw [List.find?_eq_none]
      intro c hc hct
      have hct := of_decide_eq_true hct
      obtain ⟨d, hd, hdt⟩ := hall c hc
      rw [hi] at hk
      exact h5 d ((hmem d).mpr ⟨hd, slot_in_range hsec hk hx (hdt.trans hct)⟩) (hdt.trans hct)
    rw [this, h6]; rfl

/-- The loop of `addPadding` on a list in the wrong order whose head lies at slot `x0`. -/
theorem padLoop_desc {sec : Int} (hsec : 0 < sec) {c d : Candle F} {cs : List (Candle F)} (start : Int) {k x0 : Nat}
    (hc : c.timeUnix = unix start + x0 * sec) (hd : d.timeUnix < c.timeUnix) (hx : x0 < k) :
    ∃ st, goFor 0 k (.ok (0, start, List.replicate k none)) (fun x st => padStep (sec * nsec) (c :: d :: cs) x st) = .ok st ∧
      ((x0 + 1 < k ∧ st = .error .notAligned) ∨
       (x0 + 1 = k ∧ ∃ t a, st = .ok (t, a, tab k fun x => some (if x = x0 then c else Candle.zero (unix start + x * sec))))) := by
  let f : Nat → Option (Candle F) := fun x => some (if x = x0 then c else Candle.zero (unix start + x * sec))
  have hu : ∀ x : Nat, unix (start + (x : Int) * (sec * nsec)) = unix start + x * sec := fun x => slotTime_secs x
  have hmono : ∀ x y : Nat, x < y → (x : Int) * sec < y * sec := fun x y h => mul_lt_mul_of_pos_right (by omega) hsec
  obtain ⟨st, h1, h2⟩ := goFor_inv' (lo := 0) (hi := k) (s := (.ok (0, start, List.replicate k none)))
    (body := fun x st => padStep (sec * nsec) (c :: d :: cs) x st) (Nat.zero_le _)
    (fun x st => (x ≤ x0 ∧ st = .ok (0, start + (x : Int) * (sec * nsec), filled k x f none)) ∨
      (x = x0 + 1 ∧ st = .ok (1, start + (x : Int) * (sec * nsec), filled k x f none)) ∨ (x0 + 1 < x ∧ st = .error .notAligned))
    (.inl ⟨by omega, by rw [filled_zero k f]; simp⟩)
    (by
      rintro x st - hx (⟨h3, rfl⟩ | ⟨h3, rfl⟩ | ⟨h3, rfl⟩)
      · have hnext : start + (x : Int) * (sec * nsec) + sec * nsec = start + ((x + 1 : Nat) : Int) * (sec * nsec) := by push_cast; ring
        simp only [padStep, hu, hnext]
        rw [if_neg (by simp; omega), show idx (c :: d :: cs) 0 = .ok c from rfl, ok_bind]
        rcases Nat.lt_or_ge x x0 with h4 | h4
        · have := hmono x x0 h4
          rw [if_pos (by omega), if_neg (by omega), setAt_filled (f := f) hx (by simp only [f]; rw [if_neg (by omega)])]
          exact ⟨_, rfl, .inl ⟨by omega, rfl⟩⟩
        · obtain rfl : x = x0 := by omega
          rw [if_neg (by omega), setAt_filled (f := f) hx (by simp [f])]
          exact ⟨_, rfl, .inr (.inl ⟨rfl, rfl⟩)⟩
      · simp only [padStep, hu]
        have := hmono x0 x (by omega)
        rw [if_neg (by simp), show idx (c :: d :: cs) 1 = .ok d from rfl, ok_bind, if_pos (by omega), if_pos (by omega)]
        exact ⟨_, rfl, .inr (.inr ⟨by omega, rfl⟩)⟩
      · exact ⟨_, rfl, .inr (.inr ⟨by omega, rfl⟩)⟩)
  refine ⟨st, h1, ?_⟩
  rcases h2 with ⟨h3, -⟩ | ⟨h3, rfl⟩ | ⟨h3, rfl⟩
  · omega
  · refine .inr ⟨h3.symm, 1, start + (k : Int) * (sec * nsec), ?_⟩
    congr 3
    exact tab_ext fun i hi => by simp [hi, f]
  · exact .inl ⟨h3, rfl⟩

/-- **C139 (the documented flag).** Whoever reads `desc = false` as ascending loses the series: with two or more candles of
different times, all on the grid, `addPadding` fails; or, if the latest candle lies in the last slot, it succeeds with all
other candles replaced by empty ones. -/
theorem C139_documented_flag (e : Item F) {sec : Int} (hsec : 0 < sec) (hi : e.interval = sec * nsec)
    (start stop : Int) (k : Nat) (hk : (stop - start).tdiv e.interval = k)
    (hn : (e.candles.map (·.timeUnix)).Nodup) (h2 : 2 ≤ e.candles.length) {latest : Candle F} (hmem : latest ∈ e.candles)
    (hlatest : ∀ c ∈ e.candles, c.timeUnix ≤ latest.timeUnix) {x0 : Nat} (hx0 : x0 < k)
    (hslot : latest.timeUnix = unix start + x0 * sec) (cs : List (Candle F)) (hs : SortCandlesByTimestamp false e.candles cs) :
    (x0 + 1 < k → addPadding (some { e with candles := cs }) start stop false = .ok (.error .notAligned)) ∧
    (x0 + 1 = k → addPadding (some { e with candles := cs }) start stop false =
      .ok (.ok { e with candles := tab x0 (fun x => Candle.zero (unix start + x * sec)) ++ [latest] })) := by
  have hi0 : 0 < e.interval := by rw [hi]; exact mul_pos hsec (by decide)
  have hw := window_pos hi0 hk (by omega)
  have hns := (hs.1.map (·.timeUnix)).nodup_iff.mpr hn
  have hp : cs.Pairwise fun a b => b.timeUnix < a.timeUnix := by
    have h3 : cs.Pairwise fun a b => ¬ b.timeUnix > a.timeUnix := by simpa using hs.2
    have h4 : cs.Pairwise fun a b => a.timeUnix ≠ b.timeUnix := by simpa [List.Nodup, List.pairwise_map] using hns
    exact (h3.and h4).imp fun ⟨h5, h6⟩ => by omega
  obtain ⟨c, d, cs', rfl⟩ : ∃ c d cs', cs = c :: d :: cs' := by
    have := hs.1.length_eq
    match cs, this with
    | [], h => simp at h; omega
    | [_], h => simp at h; omega
    | c :: d :: cs', _ => exact ⟨c, d, cs', rfl⟩
  have hcl : c = latest := by
    have h3 : latest ∈ c :: d :: cs' := hs.1.mem_iff.mpr hmem
    rcases List.mem_cons.mp h3 with rfl | h3
    · rfl
    · have h4 := (List.pairwise_cons.mp hp).1 _ h3
      have h5 := hlatest c (hs.1.mem_iff.mp List.mem_cons_self)
      omega
  subst hcl
  have hd : d.timeUnix < c.timeUnix := (List.pairwise_cons.mp hp).1 d List.mem_cons_self
  obtain ⟨st, h3, h4⟩ := padLoop_desc (cs := cs') hsec start hslot hd hx0
  have hrun : addPadding (some { e with candles := c :: d :: cs' }) start stop false = padFinish { e with candles := c :: d :: cs' } false st := by
    unfold addPadding
    simp only
    rw [if_neg (by omega), if_neg (by omega), goDiv, if_neg (by omega), ok_bind, hk, mk_nat, ok_bind,
      List.length_replicate, hi, h3, ok_bind]
  rw [hrun]
  rcases h4 with ⟨h5, rfl⟩ | ⟨h5, t, a, rfl⟩
  · exact ⟨fun _ => rfl, fun h => by omega⟩
  · refine ⟨fun h => by omega, fun _ => ?_⟩
    simp only [padFinish, Bool.false_eq_true, if_false, pure_eq_ok, ok_bind, allSlots_tab]
    congr 3
    subst h5
    rw [tab_succ, if_pos rfl]
    congr 1
    exact tab_ext fun i hi => by rw [if_neg (by omega)]

/-! ## The hypotheses are met -/

/-- A feed out of order: minutes 3, 1, 3 (again, another price), 9. -/
def rawFeed : Mem (XF ℚ) :=
  { cells := [{ Candle.zero 180 with open_ := .fin 7 }, { Candle.zero 60 with open_ := .fin 5 }, { Candle.zero 180 with open_ := .fin 8 },
      { Candle.zero 540 with open_ := .fin 9 }], arrays := [[some 0, some 1, some 2, some 3]] }
def rawItem : ItemH := { exchange := "x", interval := 60 * nsec, symbol := "s", code := "c", candles := { arr := 0, off := 0, len := 4 } }

theorem rawFeed_valid : rawFeed.Valid rawItem := by
  refine ⟨⟨_, rfl, by decide⟩, ?_⟩
  intro p hp
  have : p ∈ [some 0, some 1, some 2, some 3] := hp
  simp only [List.mem_cons, List.not_mem_nil, or_false] at this
  rcases this with rfl | rfl | rfl | rfl
  · exact ⟨0, rfl, by decide⟩
  · exact ⟨1, rfl, by decide⟩
  · exact ⟨2, rfl, by decide⟩
  · exact ⟨3, rfl, by decide⟩

example := C139_feed rawFeed rawItem rawFeed_valid (sec := 60) (by decide) rfl (60 * nsec) (300 * nsec) 4 (by decide) (by decide)

/-- Nothing of it lies off the grid. -/
example : ¬ OffGrid ((rawFeed.shown rawItem).filter fun c => decide (inRange (60 * nsec) (300 * nsec) c)) (60 * nsec) 60 4 := by
  have h : (rawFeed.shown rawItem).filter (fun c => decide (inRange (60 * nsec) (300 * nsec) c)) =
      [{ Candle.zero 180 with open_ := .fin 7 }, { Candle.zero 60 with open_ := .fin 5 }, { Candle.zero 180 with open_ := .fin 8 }] := by
    decide +kernel
  rw [h]
  rintro ⟨c, hc, -, h⟩
  simp only [List.mem_cons, List.not_mem_nil, or_false] at hc
  rcases hc with rfl | rfl | rfl
  · exact h 2 (by decide)
  · exact h 0 (by decide)
  · exact h 2 (by decide)

/-- Sorting first and removing duplicates afterwards may keep the later candle: `sort.Slice` is not stable. -/
theorem C139_sort_first_refuted : ∃ cs cs' : List (Candle (XF ℚ)),
    SortCandlesByTimestamp true (rawFeed.shown rawItem) cs ∧ SortCandlesByTimestamp true (rawFeed.shown rawItem) cs' ∧
    (firsts cs []).map (·.open_) = [.fin 5, .fin 7, .fin 9] ∧ (firsts cs' []).map (·.open_) = [.fin 5, .fin 8, .fin 9] := by
  refine ⟨[{ Candle.zero 60 with open_ := .fin 5 }, { Candle.zero 180 with open_ := .fin 7 }, { Candle.zero 180 with open_ := .fin 8 }, { Candle.zero 540 with open_ := .fin 9 }],
    [{ Candle.zero 60 with open_ := .fin 5 }, { Candle.zero 180 with open_ := .fin 8 }, { Candle.zero 180 with open_ := .fin 7 }, { Candle.zero 540 with open_ := .fin 9 }],
    ⟨by decide +kernel, by decide +kernel⟩, ⟨by decide +kernel, by decide +kernel⟩, by decide +kernel, by decide +kernel⟩

example := C139_documented_flag gapItem (sec := 60) (by decide) rfl (ofUnix 60) (240 * nsec) 3 (by decide) (by decide) (by decide)
  (latest := { Candle.zero 180 with open_ := .fin 1 }) (by simp [gapItem]) (by decide) (x0 := 2) (by decide) (by decide)
  gapItem.candles.reverse ⟨List.reverse_perm _, by decide⟩

end Verif.Props
