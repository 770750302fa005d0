import Verif.Klines.Convert

/-!
# Filling gaps with empty candles (`utils/klines/kline.go:207-261`)
-/

set_option linter.unusedSectionVars false

namespace Verif.Klines
open Verif GoFloat

variable {F : Type} [GoFloat F]

/-- The errors of `addPadding` (utils/klines/kline_type.go:46-58). -/
inductive PadErr where
  | nilKline
  | invalidInterval
  | noWindow
  | notAligned
  deriving DecidableEq, Repr

/-- Models utils/klines/kline.go:223-243, one iteration of the loop over `padded`. The state is `target`, `start` and
`padded`, or the error of the early return, after which nothing happens. A nil slot of `padded` is `none`. -/
def padStep (interval : Int) (cs : List (Candle F)) (x : Int) :
    Except PadErr (Int × Int × List (Option (Candle F))) → Go (Except PadErr (Int × Int × List (Option (Candle F))))
  | .error e => pure (.error e)
  | .ok (target, start, padded) =>
    if target ≥ cs.length then do
      let padded ← setAt padded x (some (Candle.zero (unix start)))
      pure (.ok (target, start + interval, padded))
    else do
      let c ← idx cs target
      if c.timeUnix ≠ unix start then
        if c.timeUnix < unix start then pure (.error .notAligned)
        else do
          let padded ← setAt padded x (some (Candle.zero (unix start)))
          pure (.ok (target, start + interval, padded))
      else do
        let padded ← setAt padded x (some c)
        pure (.ok (target + 1, start + interval, padded))

/-- The condition of utils/klines/kline.go:250-254. -/
def emptyCandle (c : Candle F) : Bool :=
  (c.volume ==. fl 0) && (c.open_ ==. fl 0) && (c.high ==. fl 0) && (c.low ==. fl 0) && (c.close ==. fl 0)

/-- Models utils/klines/kline.go:244-260: what follows the loop, from its final state. -/
def padFinish (e : Item F) (purgeOnPartial : Bool) :
    Except PadErr (Int × Int × List (Option (Candle F))) → Go (Except PadErr (Item F))
  | .error err => pure (.error err)
  | .ok (_, _, padded) => do
    let padded ← (if purgeOnPartial then do
        let last ← (idx padded (padded.length - 1) >>= derefSlot)
        if emptyCandle last then slice padded 0 (padded.length - 1) else pure padded
      else pure padded)
    match allSlots padded with
    | some cs => pure (.ok { e with candles := cs })
    | none => .error .nilDeref

/-- Models utils/klines/kline.go:207-261 `addPadding`; `e = none` is the nil receiver; the result is the item
afterwards. Simplifications: the subtraction of instants does not saturate (Go saturates at 292 years); a nil slot in
`padded` - there is none, see `padLoop_spec` - would show as `nilDeref`. -/
def addPadding (e : Option (Item F)) (start stop : Int) (purgeOnPartial : Bool) : Go (Except PadErr (Item F)) :=
  match e with
  | none => pure (.error .nilKline)
  | some e =>
    if e.interval ≤ 0 then pure (.error .invalidInterval)
    else if stop - start ≤ 0 then pure (.error .noWindow)
    else do
      let k ← goDiv (stop - start) e.interval
      let padded ← mk k none
      let s ← goFor 0 padded.length (.ok (0, start, padded)) fun x s => padStep e.interval e.candles x s
      padFinish e purgeOnPartial s

/-- The Unix time of slot `x`. -/
def slotTime (start interval : Int) (x : Nat) : Int := unix (start + x * interval)

/-- What slot `x` should hold: the candle of that time, else an empty one. -/
def slotOf (cs : List (Candle F)) (start interval : Int) (x : Nat) : Candle F :=
  (cs.find? fun c => c.timeUnix = slotTime start interval x).getD (Candle.zero (slotTime start interval x))

theorem slotTime_secs {start s : Int} (x : Nat) : slotTime start (s * nsec) x = unix start + x * s := by
  unfold slotTime unix
  rw [← mul_assoc, Int.add_mul_ediv_right _ _ (by decide)]

/-- Some candle before the last slot is not at the time of a slot. -/
def Misaligned (cs : List (Candle F)) (start interval : Int) (k : Nat) : Prop :=
  ∃ c ∈ cs, c.timeUnix < slotTime start interval (k - 1) ∧ ∀ x, c.timeUnix ≠ slotTime start interval x

theorem slotTime_lt {start s : Int} (hs : 0 < s) {x y : Nat} (h : x < y) :
    slotTime start (s * nsec) x < slotTime start (s * nsec) y := by
  rw [slotTime_secs, slotTime_secs]
  have : (x : Int) * s < y * s := mul_lt_mul_of_pos_right (by omega) hs
  omega

theorem find_tab {m : Nat} {c : Nat → Candle F} (hc : ∀ i j, i < j → j < m → (c i).timeUnix < (c j).timeUnix)
    {u : Int} {i : Nat} (hi : i < m) (hu : (c i).timeUnix = u) :
    (tab m c).find? (fun c => c.timeUnix = u) = some (c i) := by
  cases hf : (tab m c).find? (fun c => c.timeUnix = u) with
  | none =>
    have := List.find?_eq_none.mp hf (c i) (by simp only [tab, List.mem_map, List.mem_range]; exact ⟨i, hi, rfl⟩)
    exact absurd hu (by simpa using this)
  | some d =>
    have h1 := List.find?_some hf
    have h2 := List.mem_of_find?_eq_some hf
    simp only [tab, List.mem_map, List.mem_range] at h2
    obtain ⟨j, hj, rfl⟩ := h2
    have h3 : (c j).timeUnix = u := by simpa using h1
    rcases Nat.lt_trichotomy i j with h | h | h
    · have := hc i j h hj; omega
    · rw [h]
    · have := hc j i h hi; omega

theorem find_tab_none {m : Nat} {c : Nat → Candle F} {u : Int} (h : ∀ i, i < m → (c i).timeUnix ≠ u) :
    (tab m c).find? (fun c => c.timeUnix = u) = none := by
  rw [List.find?_eq_none]
  intro d hd
  simp only [tab, List.mem_map, List.mem_range] at hd
  obtain ⟨j, hj, rfl⟩ := hd
  simpa using h j hj

/-- The loop: the error exactly when a candle is misaligned, else every slot as it should be. -/
theorem padLoop_spec {s : Int} (hs : 0 < s) {m : Nat} {c : Nat → Candle F}
    (hc : ∀ i j, i < j → j < m → (c i).timeUnix < (c j).timeUnix) (start : Int) (k : Nat) :
    ∃ st, goFor 0 k (.ok (0, start, List.replicate k none)) (fun x st => padStep (s * nsec) (tab m c) x st) = .ok st ∧
      ((st = .error .notAligned ∧ 1 ≤ k ∧ Misaligned (tab m c) start (s * nsec) k) ∨
       (∃ t a, st = .ok (t, a, tab k fun x => some (slotOf (tab m c) start (s * nsec) x))) ∧
         (1 ≤ k → ¬ Misaligned (tab m c) start (s * nsec) k)) := by
  obtain ⟨U, hU⟩ : ∃ U, U = slotTime start (s * nsec) := ⟨_, rfl⟩
  have hmono : ∀ {x y : Nat}, x < y → U x < U y := by intro x y h; rw [hU]; exact slotTime_lt hs h
  obtain ⟨f, hf⟩ : ∃ f : Nat → Option (Candle F), f = fun x => some (slotOf (tab m c) start (s * nsec) x) := ⟨_, rfl⟩
  have hfU : ∀ x, f x = some (((tab m c).find? fun c => c.timeUnix = U x).getD (Candle.zero (U x))) := by
    intro x; rw [hf, hU]; rfl
  obtain ⟨st, h1, h2⟩ := goFor_inv (n := k) (s := (.ok (0, start, List.replicate k none)))
    (body := fun x st => padStep (s * nsec) (tab m c) x st)
    (fun x st => (st = .error .notAligned ∧ ∃ i, i < m ∧ ∃ y, y < x ∧ (c i).timeUnix < U y ∧ ∀ z, (c i).timeUnix ≠ U z) ∨
      ∃ t : Nat, t ≤ m ∧ st = .ok ((t : Int), start + x * (s * nsec), filled k x f none) ∧
        (∀ i, i < t → ∃ y, y < x ∧ (c i).timeUnix = U y) ∧
        ∀ i, t ≤ i → i < m → x = 0 ∨ U (x - 1) < (c i).timeUnix)
    (by
      refine .inr ⟨0, by omega, ?_, fun i hi => by omega, fun i _ _ => .inl rfl⟩
      rw [filled_zero k f]; simp)
    (by
      rintro x st hx (⟨rfl, i, hi, y, hy, h3⟩ | ⟨t, ht, rfl, hlt, hge⟩)
      · exact ⟨_, rfl, .inl ⟨rfl, i, hi, y, by omega, h3⟩⟩
      · have hux : unix (start + (x : Int) * (s * nsec)) = U x := by rw [hU]; rfl
        have hnext : start + (x : Int) * (s * nsec) + s * nsec = start + ((x + 1 : Nat) : Int) * (s * nsec) := by
          push_cast; ring
        have hlt' : ∀ i, i < t → (c i).timeUnix ≠ U x := by
          intro i hi
          obtain ⟨y, hy, h3⟩ := hlt i hi
          rw [h3]; exact (hmono hy).ne
        have hempty : (∀ i, t ≤ i → i < m → (c i).timeUnix ≠ U x) → some (Candle.zero (U x)) = f x := by
          intro h3
          rw [hfU, find_tab_none]
          · rfl
          · intro i hi
            by_cases h4 : i < t
            · exact hlt' i h4
            · exact h3 i (by omega) hi
        simp only [padStep, tab_length, hux, hnext]
        by_cases htm : t = m
        · rw [if_pos (by omega), setAt_filled hx (hempty fun i h3 h4 => by omega)]
          exact ⟨_, rfl, .inr ⟨t, ht, rfl, fun i hi => by obtain ⟨y, h3, h4⟩ := hlt i hi; exact ⟨y, by omega, h4⟩,
            fun i h3 h4 => by omega⟩⟩
        · rw [if_neg (by omega), idx_tab (by omega), ok_bind]
          by_cases heq : (c t).timeUnix = U x
          · rw [if_neg (by simpa using heq), setAt_filled hx (by rw [hfU, find_tab hc (by omega) heq]; rfl)]
            refine ⟨_, rfl, .inr ⟨t + 1, by omega, rfl, fun i hi => ?_, fun i h3 h4 => .inr ?_⟩⟩
            · by_cases h3 : i = t
              · exact ⟨x, by omega, by rw [h3, heq]⟩
              · obtain ⟨y, h3, h4⟩ := hlt i (by omega); exact ⟨y, by omega, h4⟩
            · rw [Nat.add_sub_cancel, ← heq]; exact hc t i (by omega) h4
          · rw [if_pos heq]
            by_cases hle : (c t).timeUnix < U x
            · rw [if_pos hle]
              refine ⟨_, rfl, .inl ⟨rfl, t, by omega, x, by omega, hle, fun z hz => ?_⟩⟩
              by_cases hzx : z < x
              · rcases hge t le_rfl (by omega) with h3 | h3
                · omega
                · rcases Nat.lt_or_ge z (x - 1) with h4 | h4
                  · have := hmono h4; omega
                  · rw [show z = x - 1 by omega] at hz; omega
              · rcases Nat.lt_or_ge x z with h4 | h4
                · have := hmono h4; omega
                · rw [show z = x by omega] at hz; exact heq hz
            · rw [if_neg hle, setAt_filled hx (hempty fun i h3 h4 => ?_)]
              · refine ⟨_, rfl, .inr ⟨t, ht, rfl, fun i hi => ?_, fun i h3 h4 => .inr ?_⟩⟩
                · obtain ⟨y, h3, h4⟩ := hlt i hi; exact ⟨y, by omega, h4⟩
                · rw [Nat.add_sub_cancel]
                  rcases Nat.lt_or_ge t i with h5 | h5
                  · have := hc t i h5 h4; omega
                  · rw [show i = t by omega]; omega
              · rcases Nat.lt_or_ge t i with h5 | h5
                · have := hc t i h5 h4; omega
                · rw [show i = t by omega]; exact heq)
  refine ⟨st, h1, ?_⟩
  have hmem : ∀ i, i < m → c i ∈ tab m c := fun i hi => by
    simp only [tab, List.mem_map, List.mem_range]; exact ⟨i, hi, rfl⟩
  rcases h2 with ⟨rfl, i, hi, y, hy, h3, h4⟩ | ⟨t, ht, rfl, hlt, hge⟩
  · refine .inl ⟨rfl, by omega, c i, hmem i hi, ?_, by rw [← hU]; exact h4⟩
    rw [← hU]
    rcases Nat.lt_or_ge y (k - 1) with h5 | h5
    · have := hmono h5; omega
    · rw [show k - 1 = y by omega]; exact h3
  · refine .inr ⟨⟨t, _, by rw [filled_full, hf]⟩, ?_⟩
    rintro hk ⟨d, hd, h3, h4⟩
    rw [← hU] at h3 h4
    simp only [tab, List.mem_map, List.mem_range] at hd
    obtain ⟨i, hi, rfl⟩ := hd
    by_cases hit : i < t
    · obtain ⟨y, -, h5⟩ := hlt i hit
      exact h4 y h5
    · rcases hge i (by omega) hi with h5 | h5 <;> omega

end Verif.Klines
