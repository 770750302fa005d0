import Verif.Props.KlineHeap

/-!
# Slices that share their array with an item being cleaned (C138)

`RemoveOutsideRange`, `RemoveDuplicates` and `Clear` write into the array of the item. A second item with the
same slice (`other := *item`), or a variable that holds `item.Candles`, keeps the old length and sees the writes.
-/

set_option linter.unusedSectionVars false

namespace Verif.Props
open Verif Verif.Klines GoFloat

variable {F : Type}

theorem shown_length {m : Mem F} {e : ItemH} (hv : m.Valid e) : (m.shown e).length = e.candles.len := by
  rw [← hv.length]
  unfold Mem.shown
  refine List.filterMap_length_eq_length.mpr fun p hp => ?_
  obtain ⟨x, rfl, hx⟩ := hv.2 p hp
  simp [hx]

theorem shown_drop {m : Mem F} {e : ItemH} (hv : m.Valid e) (k : Nat) :
    ((m.ptrs e.candles).drop k).filterMap m.cand = (m.shown e).drop k := by
  have hall : ∀ (l : List (Option Nat)), (∀ p ∈ l, ∃ a, p = some a ∧ a < m.cells.length) → ∀ k,
      (l.drop k).filterMap m.cand = (l.filterMap m.cand).drop k := by
    intro l
    induction l with
    | nil => intro _ k; simp
    | cons p l ih =>
      intro h k
      cases k with
      | zero => rfl
      | succ k =>
        obtain ⟨a, rfl, ha⟩ := h p List.mem_cons_self
        have : m.cand (some a) = some m.cells[a] := by simp [Mem.cand, ha]
        rw [List.drop_succ_cons, ih (fun q hq => h q (List.mem_cons_of_mem _ hq)), List.filterMap_cons, this, List.drop_succ_cons]
  exact hall _ hv.2 k

/-- What the array shows to a holder of the old slice after in-place filtering. -/
theorem alias_after {m : Mem F} {e f : ItemH} (hv : m.Valid e) (hf : f.candles = e.candles) {a ks : List (Option Nat)}
    (ha : m.arrays[e.candles.arr]? = some a) (hk : ks.length ≤ e.candles.len) (hsub : ∀ p ∈ ks, p ∈ m.ptrs e.candles) :
    (m.withArr e.candles.arr (overlay a e.candles.off ks)).shown f = ks.filterMap m.cand ++ (m.shown e).drop (ks.filterMap m.cand).length := by
  obtain ⟨⟨a', ha', hl⟩, hp⟩ := id hv
  rw [ha] at ha'; cases ha'
  have harr : e.candles.arr < m.arrays.length := by
    by_contra h
    rw [List.getElem?_eq_none (by omega)] at ha; cases ha
  have hlen : (ks.filterMap m.cand).length = ks.length := by
    refine List.filterMap_length_eq_length.mpr fun p hp' => ?_
    obtain ⟨x, rfl, hx⟩ := hp p (hsub p hp')
    simp [Mem.cand, hx]
  rw [hlen, ← shown_drop hv]
  have e1 : (m.withArr e.candles.arr (overlay a e.candles.off ks)).ptrs f.candles = ks ++ (m.ptrs e.candles).drop ks.length := by
    have h1 : (m.arrays.set e.candles.arr (overlay a e.candles.off ks))[e.candles.arr]? = some (overlay a e.candles.off ks) := by
      rw [List.getElem?_set_self harr]
    simp only [Mem.ptrs, Mem.withArr, hf, h1, ha, Option.getD_some]
    unfold overlay
    rw [List.append_assoc, List.drop_append_of_le_length (by simp; omega), List.drop_eq_nil_of_le (by simp), List.nil_append,
      List.take_append, List.take_of_length_le hk, List.drop_take, List.drop_drop]
  unfold Mem.shown
  rw [e1, List.filterMap_append]
  rfl

/-- **C138** for `RemoveOutsideRange`: whoever holds the old slice sees the kept candles followed by the old tail:
as many candles as before, the last ones possibly twice. -/
theorem C138_remove_outside_range (m : Mem F) (e f : ItemH) (hv : m.Valid e) (hf : f.candles = e.candles) (start stop : Int) :
    ∃ m' e', RemoveOutsideRange m e start stop = .ok (m', e') ∧
      m'.shown f = m'.shown e' ++ (m.shown e).drop (m'.shown e').length ∧ (m'.shown f).length = (m.shown e).length ∧
      (m'.shown f = m.shown e ↔ m'.shown e' <+: m.shown e) := by
  obtain ⟨ks, a, ha, hk, hsub, hks, hrun⟩ := RemoveOutsideRange_run m e hv start stop
  obtain ⟨h1, -⟩ := shown_after hv ha hk hsub
  have h2 := alias_after hv hf ha hk hsub
  refine ⟨_, _, hrun, by rw [h1, h2], ?_, ?_⟩
  · rw [h2, List.length_append, List.length_drop, hks]
    have := List.length_filter_le (fun c => decide (c.timeUnix = unix start ∨ (c.timeUnix > unix start ∧ c.timeUnix < unix stop))) (m.shown e)
    omega
  · rw [h1, h2]
    generalize ks.filterMap m.cand = k
    exact ⟨fun h => ⟨_, h⟩, fun ⟨t, h⟩ => by rw [← h]; simp⟩

theorem firsts_length (l : List (Candle F)) (seen : List Int) : (firsts l seen).length ≤ l.length := (firsts_spec l seen).2.1.length_le

/-- **C138** for `RemoveDuplicates`. -/
theorem C138_remove_duplicates (m : Mem F) (e f : ItemH) (hv : m.Valid e) (hf : f.candles = e.candles) :
    ∃ m' e', RemoveDuplicates m e = .ok (m', e') ∧
      m'.shown f = m'.shown e' ++ (m.shown e).drop (m'.shown e').length ∧ (m'.shown f).length = (m.shown e).length ∧
      (m'.shown f = m.shown e ↔ m'.shown e' <+: m.shown e) := by
  obtain ⟨ks, a, ha, hk, hsub, hks, hrun⟩ := RemoveDuplicates_run m e hv
  obtain ⟨h1, -⟩ := shown_after hv ha hk hsub
  have h2 := alias_after hv hf ha hk hsub
  refine ⟨_, _, hrun, by rw [h1, h2], ?_, ?_⟩
  · rw [h2, List.length_append, List.length_drop, hks]
    have := firsts_length (m.shown e) []
    omega
  · rw [h1, h2]
    generalize ks.filterMap m.cand = k
    exact ⟨fun h => ⟨_, h⟩, fun ⟨t, h⟩ => by rw [← h]; simp⟩

/-- **C138** for `Clear`: every candle the holder of the old slice reads afterwards is a nil pointer. -/
theorem C138_clear (m : Mem F) (e f : ItemH) (hv : m.Valid e) (hf : f.candles = e.candles) :
    ∃ m' e', Clear m e = .ok (m', e') ∧ m'.shown e' = [] ∧
      ∀ i : Nat, i < f.candles.len → (do m'.deref (← m'.load f.candles i)) = .error .nilDeref := by
  obtain ⟨⟨a, ha, hl⟩, hp⟩ := id hv
  have harr : e.candles.arr < m.arrays.length := by
    by_contra h
    rw [List.getElem?_eq_none (by omega)] at ha; cases ha
  let arrAt : Nat → List (Option Nat) := fun k => overlay a e.candles.off (List.replicate k none)
  have hat : ∀ k ≤ e.candles.len, (arrAt k).length = a.length := fun k hk => overlay_length (by simp; omega)
  have hrun : goFor 0 e.candles.len m (fun i m => m.store e.candles i none) = .ok (m.withArr e.candles.arr (arrAt e.candles.len)) := by
    refine goFor_acc (lo := 0) (Nat.zero_le _) (fun k => m.withArr e.candles.arr (arrAt k)) ?_ ?_
    · have h0 : arrAt 0 = a := overlay_nil _ _
      simp only [h0, Mem.withArr]
      have : m.arrays.set e.candles.arr a = m.arrays := by
        apply List.ext_getElem?
        intro j
        by_cases hj : j = e.candles.arr
        · subst hj; rw [List.getElem?_set_self harr, ha]
        · rw [List.getElem?_set_ne (Ne.symm hj)]
      rw [this]
    · intro k _ hk
      have hget : (m.withArr e.candles.arr (arrAt k)).arrays[e.candles.arr]? = some (arrAt k) := by
        simp [Mem.withArr, harr]
      rw [Mem.store_eq hget (by rw [hat k (by omega)]; exact hl) hk]
      congr 1
      simp only [Mem.withArr, List.set_set]
      congr 2
      have := overlay_set (a := a) (off := e.candles.off) (ks := List.replicate k none) (p := none) (by simp; omega)
      simp only [List.length_replicate] at this
      simp only [arrAt]
      rw [this, List.replicate_succ']
  refine ⟨_, { e with candles := { e.candles with len := 0 } }, by unfold Clear; rw [hrun]; rfl, by simp [Mem.shown, Mem.ptrs], ?_⟩
  intro i hi
  rw [hf] at hi ⊢
  have hload : (m.withArr e.candles.arr (arrAt e.candles.len)).load e.candles i = .ok none := by
    refine Mem.load_eq (a := arrAt e.candles.len) (by simp [Mem.withArr, harr]) hi ?_
    simp only [arrAt, overlay]
    rw [List.append_assoc, List.getElem?_append_right (by simp), List.getElem?_append_left (by simp; omega), List.getElem?_replicate]
    simp; omega
  rw [hload]
  rfl

/-- The sample item is valid, so the three theorems apply to it and to any item with its slice. -/
theorem sample_valid : sampleMem.Valid sampleItem := by
  refine ⟨⟨_, rfl, by decide⟩, ?_⟩
  intro p hp
  have : p ∈ [some 2, some 0, some 1] := hp
  simp only [List.mem_cons, List.not_mem_nil, or_false] at this
  rcases this with rfl | rfl | rfl
  · exact ⟨2, rfl, by decide⟩
  · exact ⟨0, rfl, by decide⟩
  · exact ⟨1, rfl, by decide⟩

example := C138_remove_outside_range sampleMem sampleItem { sampleItem with symbol := "copy" } sample_valid rfl (1 * nsec) (3 * nsec)
example := C138_remove_duplicates sampleMem sampleItem { sampleItem with symbol := "copy" } sample_valid rfl
example := C138_clear sampleMem sampleItem { sampleItem with symbol := "copy" } sample_valid rfl

/-- The copy of the item shows candle 2 twice and has lost candle 3. -/
theorem C138_copy_refuted : ¬ ∀ (m : Mem (XF ℚ)) (e f : ItemH), m.Valid e → f.candles = e.candles → ∀ start stop m' e',
    RemoveOutsideRange m e start stop = .ok (m', e') → m'.shown f = m.shown e := by
  intro h
  obtain ⟨m', e', hrun, -, -, -⟩ := C138_remove_outside_range sampleMem sampleItem sampleItem sample_valid rfl (1 * nsec) (3 * nsec)
  have h1 := congrArg (List.map (·.timeUnix)) (h _ _ sampleItem sample_valid rfl _ _ _ _ hrun)
  have h2 : (RemoveOutsideRange sampleMem sampleItem (1 * nsec) (3 * nsec)).map (fun r => (r.1.shown sampleItem).map (·.timeUnix))
      = .ok [1, 2, 2] := by decide +kernel
  rw [hrun] at h2
  have h3 : (m'.shown sampleItem).map (·.timeUnix) = [1, 2, 2] := by simpa [Except.map] using h2
  have h4 : (sampleMem.shown sampleItem).map (·.timeUnix) = [3, 1, 2] := by decide +kernel
  rw [h3, h4] at h1
  exact absurd h1 (by decide)

end Verif.Props
