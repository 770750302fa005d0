import Verif.Props.KlinePad
import Verif.Props.Bars
import Verif.Go.Binary64

/-!
# C150: filling gaps more than once

A series that grows is padded again and again, over the same window, a shorter or a longer one.
-/

set_option linter.unusedSectionVars false

namespace Verif.Props
open Verif Verif.Klines GoFloat

variable {F : Type} [GoFloat F]

theorem slot_inj {start sec : Int} (hsec : 0 < sec) {x y : Nat} (h : unix start + x * sec = unix start + y * sec) : x = y := by
  have h1 : (x : Int) * sec = y * sec := by omega
  exact_mod_cast mul_right_cancel₀ hsec.ne' h1

theorem slotOf_time (cs : List (Candle F)) (start sec : Int) (x : Nat) :
    (slotOf cs start (sec * nsec) x).timeUnix = unix start + x * sec := (inSlot_slotOf cs start sec x).1

/-- The slots of a series that is filled already. -/
theorem slotOf_filled {sec : Int} (hsec : 0 < sec) (start : Int) (k : Nat) (f : Nat → Candle F)
    (hf : ∀ x, (f x).timeUnix = unix start + x * sec) (x : Nat) :
    slotOf (tab k f) start (sec * nsec) x = if x < k then f x else Candle.zero (unix start + x * sec) := by
  unfold slotOf
  rw [slotTime_secs]
  cases hc : (tab k f).find? (fun c => c.timeUnix = unix start + x * sec) with
  | none =>
    rw [if_neg, Option.getD_none]
    intro hx
    have := List.find?_eq_none.mp hc (f x) (mem_tab.mpr ⟨x, hx, rfl⟩)
    simp [hf] at this
  | some c =>
    obtain ⟨j, hj, rfl⟩ := mem_tab.mp (List.mem_of_find?_eq_some hc)
    have ht := List.find?_some hc
    simp only [hf, decide_eq_true_eq] at ht
    have := slot_inj hsec ht
    subst this
    rw [if_pos hj, Option.getD_some]

theorem filled_sorted {sec : Int} (hsec : 0 < sec) (start : Int) (k : Nat) (f : Nat → Candle F)
    (hf : ∀ x, (f x).timeUnix = unix start + x * sec) : (tab k f).Pairwise fun a b => a.timeUnix < b.timeUnix := by
  rw [List.pairwise_iff_getElem]
  intro i j hi hj hij
  have e : ∀ i (h : i < (tab k f).length), (tab k f)[i] = f i := fun i h => by simp [tab]
  rw [e, e, hf, hf]
  have : (i : Int) * sec < j * sec := mul_lt_mul_of_pos_right (by exact_mod_cast hij) hsec
  omega

theorem filled_onGrid {sec : Int} (start : Int) (k k' : Nat) (f : Nat → Candle F)
    (hf : ∀ x, (f x).timeUnix = unix start + x * sec) : ¬ OffGrid (tab k f) start sec k' := by
  rintro ⟨c, hc, -, h⟩
  obtain ⟨j, -, rfl⟩ := mem_tab.mp hc
  exact h j (hf j)

/-- Padding a series without candles off the grid. -/
theorem addPadding_grid (e : Item F) {sec : Int} (hsec : 0 < sec) (hi : e.interval = sec * nsec)
    (hcs : e.candles.Pairwise fun a b => a.timeUnix < b.timeUnix) (start stop : Int) (k : Nat)
    (hk : (stop - start).tdiv e.interval = k) (hk1 : 1 ≤ k) (hg : ¬ OffGrid e.candles start sec k) (purge : Bool) :
    addPadding (some e) start stop purge =
      padFinish e purge (.ok (0, 0, tab k fun x => some (slotOf e.candles start (sec * nsec) x))) := by
  have hi0 : 0 < e.interval := by rw [hi]; exact mul_pos hsec (by decide)
  obtain ⟨st, h1, h2⟩ := addPadding_run e hsec hi hcs start stop k (window_pos hi0 hk hk1) hk purge
  rcases h2 with ⟨-, -, h2⟩ | ⟨⟨t, a, rfl⟩, -⟩
  · exact absurd h2 hg
  · rw [h1]; rfl

theorem padFinish_keep (e : Item F) {k : Nat} (f : Nat → Candle F) :
    padFinish e false (.ok (0, 0, tab k fun x => some (f x))) = .ok (.ok { e with candles := tab k f }) := by
  simp only [padFinish, Bool.false_eq_true, if_false, pure_eq_ok, ok_bind, allSlots_tab]

theorem padFinish_purge (e : Item F) {k : Nat} (f : Nat → Candle F) :
    padFinish e true (.ok (0, 0, tab (k + 1) fun x => some (f x))) =
      .ok (.ok { e with candles := if emptyCandle (f k) then tab k f else tab (k + 1) f }) := by
  have e1 : ((k + 1 : Nat) : Int) - 1 = (k : Int) := by omega
  have hsl : slice (tab (k + 1) fun x => some (f x)) 0 (k : Int) = .ok (tab k fun x => some (f x)) := by
    have := slice_tab (n := k + 1) (lo := 0) (hi := k) (fun x => some (f x)) (by omega) (by omega)
    simpa only [Nat.sub_zero, Nat.zero_add, Nat.cast_zero] using this
  simp only [padFinish, if_true, tab_length, e1, idx_tab (show k < k + 1 by omega), ok_bind, derefSlot, pure_eq_ok, hsl]
  by_cases hz : emptyCandle (f k) = true
  · simp only [hz, if_true, ok_bind, allSlots_tab]
  · rw [if_neg hz, if_neg hz]
    simp only [ok_bind, allSlots_tab]

/-- Padding a series that is filled already. -/
theorem addPadding_filled (e : Item F) {sec : Int} (hsec : 0 < sec) (hi : e.interval = sec * nsec) (start stop : Int) (k k' : Nat)
    (f : Nat → Candle F) (hf : ∀ x, (f x).timeUnix = unix start + x * sec) (hk' : (stop - start).tdiv e.interval = k') (hk1 : 1 ≤ k')
    (purge : Bool) : addPadding (some { e with candles := tab k f }) start stop purge =
      padFinish e purge (.ok (0, 0, tab k' fun x => some (if x < k then f x else Candle.zero (unix start + x * sec)))) := by
  have h := addPadding_grid { e with candles := tab k f } hsec hi (filled_sorted hsec start k f hf) start stop k' hk' hk1
    (filled_onGrid start k k' f hf) purge
  have e1 : (tab k' fun x => some (slotOf (tab k f) start (sec * nsec) x)) =
      tab k' fun x => some (if x < k then f x else Candle.zero (unix start + x * sec)) :=
    tab_ext fun x _ => by rw [slotOf_filled hsec start k f hf]
  rw [h, ← e1]
  rfl

section
variable (e : Item F) {sec : Int} (hsec : 0 < sec) (hi : e.interval = sec * nsec)
  (hcs : e.candles.Pairwise fun a b => a.timeUnix < b.timeUnix) (start stop : Int) (k : Nat)
  (hk : (stop - start).tdiv e.interval = k) (hk1 : 1 ≤ k) {e1 : Item F}
include hsec hi hcs hk hk1

/-- What padding with success says about the series. -/
theorem padded_eq {purge : Bool} (h : addPadding (some e) start stop purge = .ok (.ok e1)) :
    ¬ OffGrid e.candles start sec k ∧
      padFinish e purge (.ok (0, 0, tab k fun x => some (slotOf e.candles start (sec * nsec) x))) = .ok (.ok e1) := by
  have hi0 : 0 < e.interval := by rw [hi]; exact mul_pos hsec (by decide)
  have hg : ¬ OffGrid e.candles start sec k := by
    intro hg
    obtain ⟨st, h1, h2⟩ := addPadding_run e hsec hi hcs start stop k (window_pos hi0 hk hk1) hk purge
    rcases h2 with ⟨rfl, -, -⟩ | ⟨-, h2⟩
    · rw [h1] at h; cases h
    · exact h2 hk1 hg
  refine ⟨hg, ?_⟩
  rw [← addPadding_grid e hsec hi hcs start stop k hk hk1 hg, h]

/-- **C150 (the same or a shorter window).** Padding a padded series over the same window, or one that starts with it and is
shorter, gives what padding the series in the first place gives, purging included. In particular padding twice is padding
once. -/
theorem C150_again (h : addPadding (some e) start stop false = .ok (.ok e1)) :
    (∀ (stop' : Int) (k' : Nat) (purge : Bool), (stop' - start).tdiv e.interval = k' → 1 ≤ k' → k' ≤ k →
      addPadding (some e1) start stop' purge = addPadding (some e) start stop' purge) ∧
    addPadding (some e1) start stop false = .ok (.ok e1) := by
  obtain ⟨hg, hp⟩ := padded_eq e hsec hi hcs start stop k hk hk1 h
  rw [padFinish_keep] at hp
  have he := Except.ok.inj (Except.ok.inj hp)
  have ht := slotOf_time e.candles start sec
  have key : ∀ (stop' : Int) (k' : Nat) (purge : Bool), (stop' - start).tdiv e.interval = k' → 1 ≤ k' → k' ≤ k →
      addPadding (some e1) start stop' purge = addPadding (some e) start stop' purge := by
    intro stop' k' purge hk' hk1' hle
    have hg' : ¬ OffGrid e.candles start sec k' := by
      rintro ⟨c, hc, hlt, hn⟩
      refine hg ⟨c, hc, lt_of_lt_of_le hlt ?_, hn⟩
      have : ((k' - 1 : Nat) : Int) * sec ≤ ((k - 1 : Nat) : Int) * sec :=
        mul_le_mul_of_nonneg_right (by exact_mod_cast Nat.sub_le_sub_right hle 1) hsec.le
      omega
    rw [addPadding_grid e hsec hi hcs start stop' k' hk' hk1' hg', ← he,
      addPadding_filled e hsec hi start stop' k k' _ ht hk' hk1' purge]
    refine congrArg (fun t => padFinish e purge (.ok (0, 0, t))) (tab_ext fun x hx => ?_)
    rw [if_pos (by omega)]
  exact ⟨key, by rw [key stop k false hk hk1 (le_refl _), h]⟩

/-- **C150 (a longer window).** Padding a padded series over a longer window puts empty candles behind it, one per further
slot. -/
theorem C150_longer (h : addPadding (some e) start stop false = .ok (.ok e1)) (stop' : Int) (k' : Nat)
    (hk' : (stop' - start).tdiv e.interval = k') (hle : k ≤ k') :
    addPadding (some e1) start stop' false = .ok (.ok { e with candles :=
      (e1.candles ++ (List.range (k' - k)).map fun i => Candle.zero (unix start + ((k + i : Nat) : Int) * sec)) }) := by
  obtain ⟨hg, hp⟩ := padded_eq e hsec hi hcs start stop k hk hk1 h
  rw [padFinish_keep] at hp
  have he := Except.ok.inj (Except.ok.inj hp)
  have ht := slotOf_time e.candles start sec
  subst he
  rw [addPadding_filled e hsec hi start stop' k k' _ ht hk' (by omega) false, padFinish_keep]
  dsimp only
  refine congrArg (fun cs => (Except.ok (Except.ok { e with candles := cs }) : Go (Except PadErr (Item F)))) ?_
  refine List.ext_getElem? fun i => ?_
  by_cases h1 : i < k
  · rw [tab_getElem?_lt (by omega), List.getElem?_append_left (by simpa using h1), tab_getElem?_lt h1, if_pos h1]
  · by_cases h2 : i < k'
    · rw [tab_getElem?_lt h2, List.getElem?_append_right (by simpa using h1), if_neg h1, tab_length, List.getElem?_map,
        List.getElem?_range (by omega)]
      simp only [Option.map_some]
      rw [show k + (i - k) = i by omega]
    · rw [List.getElem?_eq_none (by simpa using h2), List.getElem?_eq_none (by simp; omega)]

/-- **C150 (purging).** With purging, too, padding twice is padding once: a last candle that was dropped is put back and dropped
again. -/
theorem C150_purge (h0 : ((fl 0 : F) ==. fl 0) = true) (h : addPadding (some e) start stop true = .ok (.ok e1)) :
    addPadding (some e1) start stop true = .ok (.ok e1) := by
  obtain ⟨hg, hp⟩ := padded_eq e hsec hi hcs start stop k hk hk1 h
  obtain ⟨k, rfl⟩ : ∃ k', k = k' + 1 := ⟨k - 1, by omega⟩
  rw [padFinish_purge] at hp
  have he := Except.ok.inj (Except.ok.inj hp)
  have ht := slotOf_time e.candles start sec
  have hz : ∀ t, emptyCandle (Candle.zero t : Candle F) = true := by
    intro t; simp [emptyCandle, Candle.zero, h0]
  by_cases hl : emptyCandle (slotOf e.candles start (sec * nsec) k) = true
  · rw [if_pos hl] at he
    subst he
    rw [addPadding_filled e hsec hi start stop k (k + 1) _ ht hk (by omega) true, padFinish_purge, if_neg (lt_irrefl k), if_pos (hz _)]
    refine congrArg (fun cs => Except.ok (Except.ok { e with candles := cs })) (tab_ext fun x hx => ?_)
    rw [if_pos hx]
  · rw [if_neg hl] at he
    subst he
    rw [addPadding_filled e hsec hi start stop (k + 1) (k + 1) _ ht hk (by omega) true, padFinish_purge, if_pos (show k < k + 1 by omega), if_neg hl]
    refine congrArg (fun cs => Except.ok (Except.ok { e with candles := cs })) (tab_ext fun x hx => ?_)
    rw [if_pos hx]

end

/-! ## Cases -/

/-- Candles at second 60 and 240, one minute wide. -/
def exGaps : Item (XF ℚ) :=
  { exchange := "x", interval := 60 * nsec, symbol := "s", code := "c",
    candles := [{ (Candle.zero 60 : Candle (XF ℚ)) with close := .fin 7, volume := .fin 3 },
      { (Candle.zero 240 : Candle (XF ℚ)) with close := .fin 8, volume := .fin 5 }] }

def volumesOf (r : Go (Except PadErr (Item (XF ℚ)))) : List (XF ℚ) :=
  match r with
  | .ok (.ok e) => e.candles.map (·.volume)
  | _ => []

/-- **C150 (refuted part).** Padding step by step is not padding once: the candles behind the first window are dropped without a
word, and the next window shows empty candles in their place. -/
theorem C150_stages_refuted : ∃ (e e1 : Item (XF ℚ)) (start stop stop' : Int),
    addPadding (some e) start stop false = .ok (.ok e1) ∧
    volumesOf (addPadding (some e) start stop' false) = [.fin 0, .fin 3, .fin 0, .fin 0, .fin 5] ∧
    volumesOf (addPadding (some e1) start stop' false) = [.fin 0, .fin 3, .fin 0, .fin 0, .fin 0] := by
  refine ⟨exGaps, { exGaps with candles := tab 3 fun x => slotOf exGaps.candles 0 (60 * nsec) x }, 0, 180 * nsec, 300 * nsec, ?_, ?_, ?_⟩
  · have hg : ¬ OffGrid exGaps.candles 0 60 3 := by
      rintro ⟨c, hc, h1, h2⟩
      simp only [exGaps, List.mem_cons, List.not_mem_nil, or_false] at hc
      rcases hc with rfl | rfl
      · exact h2 1 (by decide)
      · exact absurd h1 (by decide)
    rw [addPadding_grid exGaps (sec := 60) (by decide) rfl (by decide) 0 (180 * nsec) 3 (by decide) (by decide) hg, padFinish_keep]
  · decide +kernel
  · decide +kernel

/-- C150: the hypotheses hold for these candles and windows of three and five minutes; the condition on 0 holds for exact numbers and for
float64. -/
example : exGaps.interval = (60 : Int) * nsec ∧ (exGaps.candles.Pairwise fun a b => a.timeUnix < b.timeUnix) ∧
    (180 * nsec - 0).tdiv exGaps.interval = (3 : Nat) ∧ (300 * nsec - 0).tdiv exGaps.interval = (5 : Nat) ∧
    (∃ e1, addPadding (some exGaps) 0 (300 * nsec) true = .ok (.ok e1)) ∧
    ((fl 0 : XF ℚ) ==. fl 0) = true ∧ ((fl 0 : B64) ==. fl 0) = true := by
  refine ⟨rfl, by decide, by decide, by decide, ?_, by decide +kernel, by decide +kernel⟩
  have hg : ¬ OffGrid exGaps.candles 0 60 5 := by
    rintro ⟨c, hc, h1, h2⟩
    simp only [exGaps, List.mem_cons, List.not_mem_nil, or_false] at hc
    rcases hc with rfl | rfl
    · exact h2 1 (by decide)
    · exact h2 4 (by decide)
  rw [addPadding_grid exGaps (sec := 60) (by decide) rfl (by decide) 0 (300 * nsec) 5 (by decide) (by decide) hg, padFinish_purge]
  exact ⟨_, rfl⟩

end Verif.Props
