import Verif.Klines.Heap
import Mathlib.Data.List.Sort
import Verif.Props.KlineTech

/-!
# C09 - C12: filtering, copying, de-duplicating and sorting candles
-/

set_option linter.unusedSectionVars false

namespace Verif.Props
open Verif Verif.Klines GoFloat

variable {F : Type}

/-! ## C09 -/

/-- The candle lies in `[start, stop)` (whole seconds), or exactly at `start`. -/
def inRange (start stop : Int) (c : Candle F) : Prop :=
  unix start ≤ c.timeUnix ∧ (c.timeUnix < unix stop ∨ c.timeUnix = unix start)

instance (start stop : Int) (c : Candle F) : Decidable (inRange start stop c) := by
  unfold inRange; infer_instance

/-- **C09.** For every item in any memory whose pointers are valid (unsorted, repeated times, shared
arrays) and all instants: `RemoveOutsideRange` does not panic; afterwards the item shows exactly the
candles in range, in the original order; no candle is changed and no other array is touched; a second
call with the same arguments leaves what is shown unchanged. -/
theorem C09_filter (m : Mem F) (e : ItemH) (hv : m.Valid e) (start stop : Int) :
    ∃ m' e', RemoveOutsideRange m e start stop = .ok (m', e') ∧
      m'.shown e' = (m.shown e).filter (fun c => decide (inRange start stop c)) ∧
      m'.Valid e' ∧ m'.cells = m.cells ∧
      (∀ j, j ≠ e.candles.arr → m'.arrays[j]? = m.arrays[j]?) ∧
      ∃ m'' e'', RemoveOutsideRange m' e' start stop = .ok (m'', e'') ∧
        m''.shown e'' = m'.shown e' := by
  have key : ∀ (m : Mem F) (e : ItemH), m.Valid e →
      ∃ m' e', RemoveOutsideRange m e start stop = .ok (m', e') ∧
      m'.shown e' = (m.shown e).filter (fun c => decide (inRange start stop c)) ∧
      m'.Valid e' ∧ m'.cells = m.cells ∧
      (∀ j, j ≠ e.candles.arr → m'.arrays[j]? = m.arrays[j]?) := by
    intro m e hv
    obtain ⟨ks, a, ha, hk, hsub, hks, hrun⟩ := RemoveOutsideRange_run m e hv start stop
    obtain ⟨h1, h2⟩ := shown_after hv ha hk hsub
    refine ⟨_, _, hrun, ?_, h2, rfl, fun j hj => ?_⟩
    · rw [h1, hks]
      refine List.filter_congr fun c _ => ?_
      unfold inRange
      congr 1
      apply propext
      omega
    · simp only [Mem.withArr, List.getElem?_set]
      rw [if_neg (fun h => hj h.symm)]
  obtain ⟨m', e', h1, h2, h3, h4, h5⟩ := key m e hv
  obtain ⟨m'', e'', k1, k2, _⟩ := key m' e' h3
  refine ⟨m', e', h1, h2, h3, h4, h5, m'', e'', k1, ?_⟩
  rw [k2, h2, List.filter_filter]
  simp

/-! ## C10 -/

/-- What a client may do with an item it was given. -/
inductive ClientOp (F : Type) where
  /-- change the fields of candle `i` through its pointer -/
  | setCandle (i : Int) (c : Candle F)
  /-- put a new candle at position `i` -/
  | newCandle (i : Int) (c : Candle F)
  | removeOutsideRange (start stop : Int)
  | removeDuplicates
  | clear

/-- Run one client operation. -/
def ClientOp.run (m : Mem F) (e : ItemH) : ClientOp F → Go (Mem F × ItemH)
  | .setCandle i c => Klines.setCandle m e i c
  | .newCandle i c => Klines.newCandle m e i c
  | .removeOutsideRange s t => RemoveOutsideRange m e s t
  | .removeDuplicates => RemoveDuplicates m e
  | .clear => Clear m e

/-- Run a list of client operations, stopping at a panic. -/
def runOps (m : Mem F) (e : ItemH) : List (ClientOp F) → Go (Mem F × ItemH)
  | [] => .ok (m, e)
  | op :: ops =>
    match op.run m e with
    | .ok (m', e') => runOps m' e' ops
    | .error p => .error p

theorem runOps_owned {nC nA : Nat} {m m' : Mem F} {e e' : ItemH} (ops : List (ClientOp F))
    (ho : Owned nC nA e.candles.arr m) (h : runOps m e ops = .ok (m', e')) : Same nC nA m m' := by
  induction ops generalizing m e with
  | nil => cases h; exact Same.refl _ _ _
  | cons op ops ih =>
    unfold runOps at h
    cases hr : op.run m e with
    | error p => rw [hr] at h; cases h
    | ok r =>
      obtain ⟨m1, e1⟩ := r
      rw [hr] at h
      have : Owned nC nA e1.candles.arr m1 ∧ Same nC nA m m1 := by
        cases op with
        | setCandle i c => exact setCandle_owned ho hr
        | newCandle i c => exact newCandle_owned ho hr
        | removeOutsideRange s t => exact RemoveOutsideRange_owned ho hr
        | removeDuplicates => exact RemoveDuplicates_owned ho hr
        | clear => exact Clear_owned ho hr
      exact this.2.trans (ih this.1 h)

theorem shown_of_same {nC nA : Nat} {m m' : Mem F} {e : ItemH} (hs : Same nC nA m m')
    (ha : e.candles.arr < nA) (hp : ∀ x, some x ∈ m.ptrs e.candles → x < nC) :
    m'.shown e = m.shown e := by
  have hptr : m'.ptrs e.candles = m.ptrs e.candles := by
    unfold Mem.ptrs; rw [hs.2 _ ha]
  unfold Mem.shown
  rw [hptr]
  refine List.filterMap_congr fun p hp' => ?_
  cases p with
  | none => rfl
  | some x => exact hs.1 x (hp x hp')

/-- **C10.** `RemoveOutsideRangeCopy` returns an item that shows field-by-field copies of the candles
in range; every item that was valid before (the original, and any other one) shows the same candles
after the call; and it still does after any sequence of operations on the returned item. -/
theorem C10_copy_is_independent (m : Mem F) (e : ItemH) (hv : m.Valid e) (start stop : Int) :
    ∃ m' e', RemoveOutsideRangeCopy m e start stop = .ok (m', e') ∧
      m'.shown e' = (m.shown e).filter (fun c => decide (inRange start stop c)) ∧
      e'.exchange = e.exchange ∧ e'.interval = e.interval ∧
      (∀ f, m.Valid f → m'.shown f = m.shown f) ∧
      ∀ ops m'' e'', runOps m' e' ops = .ok (m'', e'') →
        ∀ f, m.Valid f → m''.shown f = m.shown f := by
  obtain ⟨m1, cs, hmk⟩ : ∃ m1 cs, m.makeSlice e.candles.len = .ok (m1, cs) := by
    unfold Mem.makeSlice; rw [mk_nat]; exact ⟨_, _, rfl⟩
  obtain ⟨m2, hrun, rfl, hc, har⟩ := copy_loop m e hv m1 cs hmk
  have hshown : (m.shown e).length = e.candles.len := by
    have : (m.shown e).length = (m.ptrs e.candles).length := by
      unfold Mem.shown
      refine List.filterMap_length_eq_length.mpr ?_
      intro p hp'
      obtain ⟨x, rfl, hx⟩ := hv.2 p hp'
      simp [hx]
    rw [this, hv.length]
  let e2 : ItemH := { exchange := e.exchange, interval := e.interval, symbol := "", code := "",
                      candles := { arr := m.arrays.length, off := 0, len := e.candles.len } }
  have hptr2 : m2.ptrs e2.candles = tab e.candles.len fun i => some (m.cells.length + i) := by
    simp only [Mem.ptrs, har, e2]
    rw [List.getElem?_append_right (le_refl _), Nat.sub_self]
    simp only [List.getElem?_cons_zero, Option.getD_some, List.drop_zero]
    exact List.take_of_length_le (by simp)
  have hv2 : m2.Valid e2 := by
    refine ⟨⟨tab e.candles.len fun i => some (m.cells.length + i), ?_, by simp [e2]⟩, ?_⟩
    · simp only [har, e2]
      rw [List.getElem?_append_right (le_refl _), Nat.sub_self]; rfl
    · intro p hp
      rw [hptr2] at hp
      obtain ⟨j, hj⟩ := List.mem_iff_getElem?.mp hp
      rw [tab_getElem?] at hj
      split at hj
      · next hlt =>
        refine ⟨m.cells.length + j, (Option.some.inj hj).symm, ?_⟩
        rw [hc]; simp [hshown]; exact hlt
      · cases hj
  have hshow2 : m2.shown e2 = m.shown e := by
    unfold Mem.shown
    rw [hptr2]
    have h1 : ∀ k ≤ e.candles.len, (tab k fun i => some (m.cells.length + i)).filterMap
        (fun p => p.bind fun a => m2.cells[a]?) = (m.shown e).take k := by
      intro k
      induction k with
      | zero => intro _; simp
      | succ k ih =>
        intro hk
        rw [tab_succ, List.filterMap_append, ih (by omega), List.take_add_one]
        congr 1
        simp only [List.filterMap_cons, List.filterMap_nil, Option.bind_some, hc]
        rw [List.getElem?_append_right (by omega), Nat.add_sub_cancel_left]
        rw [List.getElem?_eq_getElem (by omega)]
        rfl
    rw [h1 _ (le_refl _), List.take_of_length_le (by omega)]
    rfl
  obtain ⟨m3, e3, h1, h2, _, _, _, _⟩ := C09_filter m2 e2 hv2 start stop
  have hfull : RemoveOutsideRangeCopy m e start stop = .ok (m3, e3) := by
    unfold RemoveOutsideRangeCopy
    rw [hmk]
    simp only [ok_bind]
    rw [hrun]
    exact h1
  have ho2 : Owned m.cells.length m.arrays.length e2.candles.arr m2 := by
    refine ⟨le_refl _, by rw [hc]; simp, ?_⟩
    intro a ha x hx
    simp only [har, e2] at ha
    rw [List.getElem?_append_right (le_refl _), Nat.sub_self] at ha
    cases ha
    obtain ⟨j, hj⟩ := List.mem_iff_getElem?.mp hx
    rw [tab_getElem?] at hj
    split at hj
    · cases hj; omega
    · cases hj
  have hs2 : Same m.cells.length m.arrays.length m m2 := by
    refine ⟨fun j hj => ?_, fun j hj => ?_⟩
    · rw [hc, List.getElem?_append_left hj]
    · rw [har, List.getElem?_append_left hj]
  obtain ⟨ho3, hs3⟩ := RemoveOutsideRange_owned ho2 h1
  have hid : e3.exchange = e.exchange ∧ e3.interval = e.interval := by
    obtain ⟨ks, a, _, _, _, _, hr⟩ := RemoveOutsideRange_run m2 e2 hv2 start stop
    rw [h1] at hr; cases hr; exact ⟨rfl, rfl⟩
  have hval : ∀ f, m.Valid f → f.candles.arr < m.arrays.length ∧
      ∀ x, some x ∈ m.ptrs f.candles → x < m.cells.length := by
    rintro f ⟨⟨a, ha, _⟩, hp⟩
    constructor
    · by_contra h
      rw [List.getElem?_eq_none (by omega)] at ha; cases ha
    · intro x hx
      obtain ⟨y, hy, hlt⟩ := hp _ hx
      cases hy; exact hlt
  refine ⟨m3, e3, hfull, by rw [h2, hshow2], hid.1, hid.2, ?_, ?_⟩
  · intro f hf
    exact shown_of_same (hs2.trans hs3) (hval f hf).1 (hval f hf).2
  · intro ops m4 e4 hops f hf
    exact shown_of_same ((hs2.trans hs3).trans (runOps_owned ops ho3 hops)) (hval f hf).1 (hval f hf).2

/-- A concrete memory: three candles, two items sharing one array. -/
def sampleMem : Mem (XF ℚ) :=
  { cells := haSample, arrays := [[some 2, some 0, some 1]] }
/-- An item over the whole array. -/
def sampleItem : ItemH :=
  { exchange := "x", interval := 1, symbol := "", code := "", candles := { arr := 0, off := 0, len := 3 } }

example : sampleMem.Valid sampleItem := by
  refine ⟨⟨_, rfl, by decide⟩, ?_⟩
  intro p hp
  have : p ∈ [some 2, some 0, some 1] := hp
  simp only [List.mem_cons, List.not_mem_nil, or_false] at this
  rcases this with rfl | rfl | rfl
  · exact ⟨2, rfl, by decide⟩
  · exact ⟨0, rfl, by decide⟩
  · exact ⟨1, rfl, by decide⟩

/-- The in-place variant is visible through an item that shares the array (this is what the copy
protects from): candles at seconds 3, 1, 2 filtered to `[1, 3)`. -/
example : (RemoveOutsideRange sampleMem sampleItem (1 * nsec) (3 * nsec)).map
    (fun r => ((r.1.shown r.2).map (·.timeUnix), (r.1.shown sampleItem).map (·.timeUnix)))
    = .ok ([1, 2], [1, 2, 2]) := by decide +kernel

/-! ## C11 -/

theorem firsts_spec (l : List (Candle F)) (seen : List Int) :
    ((firsts l seen).map (·.timeUnix)).Nodup ∧
    (firsts l seen).Sublist l ∧
    (∀ c ∈ firsts l seen, c.timeUnix ∉ seen ∧
      l.find? (fun d => decide (d.timeUnix = c.timeUnix)) = some c) ∧
    ∀ c ∈ l, c.timeUnix ∉ seen → ∃ d ∈ firsts l seen, d.timeUnix = c.timeUnix := by
  induction l generalizing seen with
  | nil => simp [firsts]
  | cons c l ih =>
    unfold firsts
    by_cases h : c.timeUnix ∈ seen
    · rw [if_pos h]
      obtain ⟨h1, h2, h3, h4⟩ := ih seen
      refine ⟨h1, h2.cons c, ?_, ?_⟩
      · intro d hd
        obtain ⟨h5, h6⟩ := h3 d hd
        refine ⟨h5, ?_⟩
        rw [List.find?_cons_of_neg, h6]
        have : ¬ c.timeUnix = d.timeUnix := fun e => h5 (e ▸ h)
        simpa using this
      · intro d hd hns
        rcases List.mem_cons.mp hd with rfl | hd
        · exact absurd h hns
        · exact h4 d hd hns
    · rw [if_neg h]
      obtain ⟨h1, h2, h3, h4⟩ := ih (c.timeUnix :: seen)
      refine ⟨?_, h2.cons_cons c, ?_, ?_⟩
      · rw [List.map_cons, List.nodup_cons]
        refine ⟨?_, h1⟩
        intro hm
        obtain ⟨d, hd, hde⟩ := List.mem_map.mp hm
        exact (h3 d hd).1 (by rw [hde]; exact List.mem_cons_self)
      · intro d hd
        rcases List.mem_cons.mp hd with rfl | hd
        · exact ⟨h, by rw [List.find?_cons_of_pos]; simp⟩
        · obtain ⟨h5, h6⟩ := h3 d hd
          simp only [List.mem_cons, not_or] at h5
          refine ⟨h5.2, ?_⟩
          rw [List.find?_cons_of_neg, h6]
          have : ¬ c.timeUnix = d.timeUnix := fun e => h5.1 e.symm
          simpa using this
      · intro d hd hns
        rcases List.mem_cons.mp hd with rfl | hd
        · exact ⟨d, List.mem_cons_self, rfl⟩
        · by_cases he : d.timeUnix = c.timeUnix
          · exact ⟨c, List.mem_cons_self, he.symm⟩
          · obtain ⟨g, hg, hge⟩ := h4 d hd (by simp [he, hns])
            exact ⟨g, List.mem_cons_of_mem _ hg, hge⟩

theorem firsts_of_nodup (l : List (Candle F)) (seen : List Int)
    (hn : (l.map (·.timeUnix)).Nodup) (hs : ∀ c ∈ l, c.timeUnix ∉ seen) : firsts l seen = l := by
  induction l generalizing seen with
  | nil => rfl
  | cons c l ih =>
    unfold firsts
    rw [if_neg (hs c List.mem_cons_self)]
    rw [List.map_cons, List.nodup_cons] at hn
    rw [ih _ hn.2]
    intro d hd
    simp only [List.mem_cons, not_or]
    refine ⟨fun e => hn.1 (List.mem_map.mpr ⟨d, hd, e⟩), hs d (List.mem_cons_of_mem _ hd)⟩

/-- **C11.** For every valid item: `RemoveDuplicates` does not panic; afterwards no two shown candles
share a timestamp, the shown candles are a subsequence of the former ones, each is the first one with
its timestamp, every former timestamp is still present, no candle is changed, and a second call
changes nothing. -/
theorem C11_first_per_timestamp (m : Mem F) (e : ItemH) (hv : m.Valid e) :
    ∃ m' e', RemoveDuplicates m e = .ok (m', e') ∧ m'.Valid e' ∧ m'.cells = m.cells ∧
      ((m'.shown e').map (·.timeUnix)).Nodup ∧
      (m'.shown e').Sublist (m.shown e) ∧
      (∀ c ∈ m'.shown e', (m.shown e).find? (fun d => decide (d.timeUnix = c.timeUnix)) = some c) ∧
      (∀ c ∈ m.shown e, ∃ d ∈ m'.shown e', d.timeUnix = c.timeUnix) ∧
      ∃ m'' e'', RemoveDuplicates m' e' = .ok (m'', e'') ∧ m''.shown e'' = m'.shown e' := by
  have key : ∀ (m : Mem F) (e : ItemH), m.Valid e → ∃ m' e', RemoveDuplicates m e = .ok (m', e') ∧
      m'.Valid e' ∧ m'.cells = m.cells ∧ m'.shown e' = firsts (m.shown e) [] := by
    intro m e hv
    obtain ⟨ks, a, ha, hk, hsub, hks, hrun⟩ := RemoveDuplicates_run m e hv
    obtain ⟨h1, h2⟩ := shown_after hv ha hk hsub
    exact ⟨_, _, hrun, h2, rfl, h1.trans hks⟩
  obtain ⟨m', e', h1, h2, h3, h4⟩ := key m e hv
  obtain ⟨m'', e'', k1, _, _, k4⟩ := key m' e' h2
  obtain ⟨s1, s2, s3, s4⟩ := firsts_spec (m.shown e) []
  rw [← h4] at s1 s2 s3 s4
  refine ⟨m', e', h1, h2, h3, s1, s2, fun c hc => (s3 c hc).2, fun c hc => s4 c hc (by simp),
    m'', e'', k1, ?_⟩
  rw [k4]
  exact firsts_of_nodup _ _ s1 (by simp)

/-! ## C12 -/

/-- **C12 (partial).** Every result keeps exactly the same candles and is ordered by time, and a
result exists; but the direction is the opposite of the flag: `desc = true` sorts ascending and
`desc = false` sorts descending. Missing from C12: the documented direction, refuted below. -/
theorem C12_sort_partial (cs : List (Candle F)) :
    (∀ desc, ∃ cs', SortCandlesByTimestamp desc cs cs') ∧
    (∀ desc cs', SortCandlesByTimestamp desc cs cs' → cs'.Perm cs) ∧
    (∀ cs', SortCandlesByTimestamp true cs cs' →
      (cs'.map (·.timeUnix)).Pairwise (· ≤ ·)) ∧
    (∀ cs', SortCandlesByTimestamp false cs cs' →
      (cs'.map (·.timeUnix)).Pairwise (· ≥ ·)) := by
  refine ⟨?_, fun desc cs' h => h.1, ?_, ?_⟩
  · intro desc
    cases desc with
    | true =>
      refine ⟨cs.insertionSort (fun a b => a.timeUnix ≤ b.timeUnix), List.perm_insertionSort _ _, ?_⟩
      simp only [if_true]
      have : Std.Total (fun a b : Candle F => a.timeUnix ≤ b.timeUnix) := ⟨fun a b => by omega⟩
      have : IsTrans (Candle F) (fun a b => a.timeUnix ≤ b.timeUnix) := ⟨fun a b c h1 h2 => by omega⟩
      exact (List.pairwise_insertionSort (fun a b : Candle F => a.timeUnix ≤ b.timeUnix) cs).imp
        (fun h => not_lt.mpr h)
    | false =>
      refine ⟨cs.insertionSort (fun a b => a.timeUnix ≥ b.timeUnix), List.perm_insertionSort _ _, ?_⟩
      simp only [Bool.false_eq_true, if_false]
      have : Std.Total (fun a b : Candle F => a.timeUnix ≥ b.timeUnix) := ⟨fun a b => by omega⟩
      have : IsTrans (Candle F) (fun a b => a.timeUnix ≥ b.timeUnix) := ⟨fun a b c h1 h2 => by omega⟩
      exact (List.pairwise_insertionSort (fun a b : Candle F => a.timeUnix ≥ b.timeUnix) cs).imp
        (fun h => not_lt.mpr h)
  · rintro cs' ⟨_, h⟩
    rw [List.pairwise_map]
    exact h.imp fun h => not_lt.mp h
  · rintro cs' ⟨_, h⟩
    rw [List.pairwise_map]
    exact h.imp fun h => not_lt.mp h

/-- **C12 is false as documented**: whenever two candles have different times, *no* result of
`SortCandlesByTimestamp(desc = true)` is in descending order and no result of `desc = false` is in
ascending order. -/
theorem C12_direction_refuted (cs : List (Candle F)) (a b : Candle F) (ha : a ∈ cs) (hb : b ∈ cs)
    (hne : a.timeUnix < b.timeUnix) :
    (∀ cs', SortCandlesByTimestamp true cs cs' → ¬ (cs'.map (·.timeUnix)).Pairwise (· ≥ ·)) ∧
    (∀ cs', SortCandlesByTimestamp false cs cs' → ¬ (cs'.map (·.timeUnix)).Pairwise (· ≤ ·)) := by
  have key : ∀ l : List Int, l.Pairwise (· ≤ ·) → l.Pairwise (· ≥ ·) →
      ∀ x ∈ l, ∀ y ∈ l, x = y := by
    intro l h1 h2 x hx y hy
    have h3 : l.Pairwise (fun x y => x = y) :=
      (List.pairwise_and_iff.mpr ⟨h1, h2⟩).imp (fun h => le_antisymm h.1 h.2)
    by_cases he : x = y
    · exact he
    · exact h3.forall_of_forall (fun _ _ => rfl) hx hy
  constructor
  · rintro cs' hs hd
    have hasc := (C12_sort_partial cs).2.2.1 cs' hs
    have := key _ hasc hd a.timeUnix (List.mem_map.mpr ⟨a, hs.1.mem_iff.mpr ha, rfl⟩)
      b.timeUnix (List.mem_map.mpr ⟨b, hs.1.mem_iff.mpr hb, rfl⟩)
    omega
  · rintro cs' hs hd
    have hasc := (C12_sort_partial cs).2.2.2 cs' hs
    have := key _ hd hasc a.timeUnix (List.mem_map.mpr ⟨a, hs.1.mem_iff.mpr ha, rfl⟩)
      b.timeUnix (List.mem_map.mpr ⟨b, hs.1.mem_iff.mpr hb, rfl⟩)
    omega

example : SortCandlesByTimestamp true haSample haSample :=
  ⟨List.Perm.refl _, by decide +kernel⟩

end Verif.Props
