import Verif.Props.KlineHeap

/-!
# Cleaning a series (C133)

`RemoveOutsideRange`, `RemoveDuplicates` and `SortCandlesByTimestamp` are the steps a client runs on downloaded candles.
-/

set_option linter.unusedSectionVars false

namespace Verif.Props
open Verif Verif.Klines GoFloat

variable {F : Type}

/-- The steps that only drop candles. -/
def CleanUp : ClientOp F → Prop
  | .removeOutsideRange _ _ => True
  | .removeDuplicates => True
  | _ => False

theorem firsts_filter (p : Candle F → Bool) (hp : ∀ c d : Candle F, c.timeUnix = d.timeUnix → p c = p d) (l : List (Candle F))
    (seen seen' : List Int) (hs : ∀ c : Candle F, p c = true → (c.timeUnix ∈ seen ↔ c.timeUnix ∈ seen')) :
    firsts (l.filter p) seen = (firsts l seen').filter p := by
  induction l generalizing seen seen' with
  | nil => simp [firsts]
  | cons c l ih =>
    by_cases hc : p c = true
    · rw [List.filter_cons_of_pos hc]
      by_cases h : c.timeUnix ∈ seen
      · rw [firsts, firsts, if_pos h, if_pos ((hs c hc).mp h)]
        exact ih _ _ hs
      · rw [firsts, firsts, if_neg h, if_neg (fun g => h ((hs c hc).mpr g)), List.filter_cons_of_pos hc, ih]
        intro d hd
        rw [List.mem_cons, List.mem_cons, hs d hd]
    · rw [List.filter_cons_of_neg hc]
      by_cases h : c.timeUnix ∈ seen'
      · rw [firsts, if_pos h]
        exact ih _ _ hs
      · rw [firsts, if_neg h, List.filter_cons_of_neg hc]
        apply ih
        intro d hd
        rw [List.mem_cons, ← hs d hd]
        refine ⟨Or.inr, ?_⟩
        rintro (g | g)
        · exact absurd (hp d c g ▸ hd) hc
        · exact g

theorem firsts_firsts (l : List (Candle F)) : firsts (firsts l []) [] = firsts l [] :=
  firsts_of_nodup _ _ (firsts_spec l []).1 (by simp)

/-- The candle passes every range among the steps. -/
def passes (ops : List (ClientOp F)) (c : Candle F) : Prop :=
  ∀ start stop, ClientOp.removeOutsideRange start stop ∈ ops → inRange start stop c

open Classical in
/-- What the steps leave, in terms of the set of steps only. -/
noncomputable def cleaned (ops : List (ClientOp F)) (l : List (Candle F)) : List (Candle F) :=
  let kept := l.filter fun c => decide (passes ops c)
  if ClientOp.removeDuplicates ∈ ops then firsts kept [] else kept

theorem passes_time (ops : List (ClientOp F)) (c d : Candle F) (h : c.timeUnix = d.timeUnix) : passes ops c ↔ passes ops d := by
  unfold passes inRange
  rw [h]

theorem dups_run (m : Mem F) (e : ItemH) (hv : m.Valid e) : ∃ m' e', RemoveDuplicates m e = .ok (m', e') ∧ m'.Valid e' ∧
    m'.shown e' = firsts (m.shown e) [] := by
  obtain ⟨ks, a, ha, hk, hsub, hks, hrun⟩ := RemoveDuplicates_run m e hv
  obtain ⟨h1, h2⟩ := shown_after hv ha hk hsub
  exact ⟨_, _, hrun, h2, h1.trans hks⟩

open Classical in
theorem runOps_clean (ops : List (ClientOp F)) (hops : ∀ op ∈ ops, CleanUp op) (m : Mem F) (e : ItemH) (hv : m.Valid e) :
    ∃ m' e', runOps m e ops = .ok (m', e') ∧ m'.Valid e' ∧ m'.shown e' = cleaned ops (m.shown e) := by
  induction ops generalizing m e with
  | nil =>
    refine ⟨m, e, rfl, hv, ?_⟩
    simp [cleaned, passes]
  | cons op ops ih =>
    have ht := fun op' h => hops op' (List.mem_cons_of_mem _ h)
    have h0 := hops op List.mem_cons_self
    match op, h0 with
    | .removeOutsideRange s t, _ =>
      obtain ⟨m1, e1, h1, h2, h3, -⟩ := C09_filter m e hv s t
      obtain ⟨m2, e2, k1, k2, k3⟩ := ih ht m1 e1 h3
      refine ⟨m2, e2, by simp only [runOps, ClientOp.run, h1, k1], k2, ?_⟩
      rw [k3, h2]
      unfold cleaned
      have hf : ((m.shown e).filter fun c => decide (inRange s t c)).filter (fun c => decide (passes ops c)) =
          (m.shown e).filter fun c => decide (passes (ClientOp.removeOutsideRange s t :: ops) c) := by
        rw [List.filter_filter]
        refine List.filter_congr fun c _ => ?_
        rw [← Bool.decide_and]
        congr 1
        apply propext
        constructor
        · rintro ⟨a, b⟩ s' t' hm
          rcases List.mem_cons.mp hm with hm | hm
          · cases hm; exact b
          · exact a _ _ hm
        · exact fun a => ⟨fun s' t' hm => a _ _ (List.mem_cons_of_mem _ hm), a _ _ List.mem_cons_self⟩
      simp only [hf, List.mem_cons, reduceCtorEq, false_or]
    | .removeDuplicates, _ =>
      obtain ⟨m1, e1, h1, h3, h2⟩ := dups_run m e hv
      obtain ⟨m2, e2, k1, k2, k3⟩ := ih ht m1 e1 h3
      refine ⟨m2, e2, by simp only [runOps, ClientOp.run, h1, k1], k2, ?_⟩
      rw [k3, h2]
      unfold cleaned
      have hp : ∀ c : Candle F, passes (ClientOp.removeDuplicates :: ops) c ↔ passes ops c := by
        intro c
        constructor
        · exact fun a s' t' hm => a _ _ (List.mem_cons_of_mem _ hm)
        · intro a s' t' hm
          rcases List.mem_cons.mp hm with hm | hm
          · cases hm
          · exact a _ _ hm
      have hq : (m.shown e).filter (fun c => decide (passes (ClientOp.removeDuplicates :: ops) c)) =
          (m.shown e).filter fun c => decide (passes ops c) := List.filter_congr fun c _ => decide_eq_decide.mpr (hp c)
      simp only [hq, List.mem_cons, true_or, if_true]
      rw [← firsts_filter _ (fun c d h => decide_eq_decide.mpr (passes_time ops c d h)) _ [] [] (fun _ _ => Iff.rfl), firsts_firsts,
        ite_self]

open Classical in
/-- **C133** The steps that drop candles can be run in any order and as often as one likes: two sequences with the same steps among
them end with the same candles shown. No sequence panics. -/
theorem C133_any_order (m : Mem F) (e : ItemH) (hv : m.Valid e) (ops ops' : List (ClientOp F)) (h : ∀ op ∈ ops, CleanUp op)
    (hsame : ∀ op, op ∈ ops ↔ op ∈ ops') :
    ∃ m1 e1 m2 e2, runOps m e ops = .ok (m1, e1) ∧ runOps m e ops' = .ok (m2, e2) ∧ m1.shown e1 = m2.shown e2 := by
  obtain ⟨m1, e1, h1, -, h2⟩ := runOps_clean ops h m e hv
  obtain ⟨m2, e2, k1, -, k2⟩ := runOps_clean ops' (fun op hm => h op ((hsame op).mpr hm)) m e hv
  refine ⟨m1, e1, m2, e2, h1, k1, ?_⟩
  rw [h2, k2]
  have hp : ∀ c : Candle F, passes ops c ↔ passes ops' c := fun c => by unfold passes; simp only [hsame]
  have hq : (m.shown e).filter (fun c => decide (passes ops c)) = (m.shown e).filter fun c => decide (passes ops' c) :=
    List.filter_congr fun c _ => decide_eq_decide.mpr (hp c)
  unfold cleaned
  simp only [hq, hsame]

/-- **C133** Two windows in a row are the window they have in common, if it lasts at least a second. -/
theorem C133_windows (m : Mem F) (e : ItemH) (hv : m.Valid e) (s t s' t' : Int) (hw : unix (Max.max s s') < unix (Min.min t t')) :
    ∃ m1 e1 m2 e2, runOps m e [.removeOutsideRange s t, .removeOutsideRange s' t'] = .ok (m1, e1) ∧
      runOps m e [.removeOutsideRange (Max.max s s') (Min.min t t')] = .ok (m2, e2) ∧ m1.shown e1 = m2.shown e2 := by
  obtain ⟨m1, e1, h1, h2, h3, -⟩ := C09_filter m e hv s t
  obtain ⟨m2, e2, k1, k2, -⟩ := C09_filter m1 e1 h3 s' t'
  obtain ⟨m3, e3, l1, l2, -⟩ := C09_filter m e hv (Max.max s s') (Min.min t t')
  refine ⟨m2, e2, m3, e3, by simp only [runOps, ClientOp.run, h1, k1], by simp only [runOps, ClientOp.run, l1], ?_⟩
  rw [k2, h2, l2, List.filter_filter]
  refine List.filter_congr fun c _ => ?_
  rw [← Bool.decide_and]
  congr 1
  apply propext
  have hu : ∀ a b : Int, a ≤ b → unix a ≤ unix b := fun a b h => by unfold unix; exact Int.ediv_le_ediv (by decide) h
  have hmax : unix (Max.max s s') = Max.max (unix s) (unix s') := by
    rcases le_total s s' with h | h
    · rw [max_eq_right h, max_eq_right (hu _ _ h)]
    · rw [max_eq_left h, max_eq_left (hu _ _ h)]
  have hmin : unix (Min.min t t') = Min.min (unix t) (unix t') := by
    rcases le_total t t' with h | h
    · rw [min_eq_left h, min_eq_left (hu _ _ h)]
    · rw [min_eq_right h, min_eq_right (hu _ _ h)]
  rw [hmax, hmin] at hw
  unfold inRange
  rw [hmax, hmin]
  omega

/-- **C133 is false for windows that have nothing in common**: a candle at the start of the later one passes the empty common window. -/
theorem C133_windows_refuted :
    (runOps sampleMem sampleItem [.removeOutsideRange (1 * nsec) (2 * nsec), .removeOutsideRange (2 * nsec) (4 * nsec)]).map
      (fun r => (r.1.shown r.2).map (·.timeUnix)) = .ok [] ∧
    (runOps sampleMem sampleItem [.removeOutsideRange (2 * nsec) (2 * nsec)]).map
      (fun r => (r.1.shown r.2).map (·.timeUnix)) = .ok [2] := by decide +kernel

/-- The instants of the candles increase. -/
def InOrder (cs : List (Candle F)) : Prop := cs.Pairwise fun a b => a.timeUnix < b.timeUnix

theorem inOrder_ext {a b : List (Candle F)} (ha : InOrder a) (hb : InOrder b) (h : ∀ c, c ∈ a ↔ c ∈ b) : a = b := by
  have na : a.Nodup := ha.imp fun h e => by rw [e] at h; exact lt_irrefl _ h
  have nb : b.Nodup := hb.imp fun h e => by rw [e] at h; exact lt_irrefl _ h
  exact ((List.perm_ext_iff_of_nodup na nb).mpr h).eq_of_pairwise (fun x y _ _ h1 h2 => absurd (h1.trans h2) (lt_irrefl _)) ha hb

theorem sorted_inOrder {cs cs' : List (Candle F)} (hn : (cs.map (·.timeUnix)).Nodup) (h : SortCandlesByTimestamp true cs cs') :
    InOrder cs' := by
  obtain ⟨hp, hs⟩ := h
  rw [if_pos rfl] at hs
  have hn' : (cs'.map (·.timeUnix)).Nodup := (hp.map _).nodup_iff.mpr hn
  have h2 : cs'.Pairwise fun a b => a.timeUnix ≠ b.timeUnix := List.pairwise_map.mp hn'
  exact (hs.and h2).imp fun ⟨a, b⟩ => lt_of_le_of_ne (not_lt.mp a) b

/-- **C133** Without duplicates the sorting has one outcome, whatever the order before; and it can be run before or after the
window, with the same outcome. -/
theorem C133_sort {cs cs' a b : List (Candle F)} (hn : (cs.map (·.timeUnix)).Nodup) (hp : cs.Perm cs') (start stop : Int)
    (ha : SortCandlesByTimestamp true cs a) :
    (SortCandlesByTimestamp true cs' b → a = b) ∧
    (SortCandlesByTimestamp true (cs.filter fun c => decide (inRange start stop c)) b →
      b = a.filter fun c => decide (inRange start stop c)) := by
  have h1 := sorted_inOrder hn ha
  constructor
  · intro hb
    refine inOrder_ext h1 (sorted_inOrder ((hp.map _).nodup_iff.mp hn) hb) fun c => ?_
    rw [ha.1.mem_iff, hb.1.mem_iff, hp.mem_iff]
  · intro hb
    refine inOrder_ext (sorted_inOrder (hn.sublist ((List.filter_sublist).map _)) hb) (h1.sublist List.filter_sublist) fun c => ?_
    rw [hb.1.mem_iff, List.mem_filter, List.mem_filter, ha.1.mem_iff]

/-- **C133** Downloading in pieces. The pieces may overlap and come in any order; each holds candles of one series `truth`, and
together they hold all its candles in the window. Then removing the duplicates, sorting (the branch that sorts upwards, see C12) and
cutting to the window gives the candles of the series in the window. -/
theorem C133_pieces {truth : List (Candle F)} (ht : InOrder truth) {pieces : List (List (Candle F))}
    (hsub : ∀ pc ∈ pieces, ∀ c ∈ pc, c ∈ truth) {start stop : Int}
    (hall : ∀ c ∈ truth, inRange start stop c → ∃ pc ∈ pieces, c ∈ pc) (m : Mem F) (e : ItemH) (hv : m.Valid e)
    (hsh : m.shown e = pieces.flatten) :
    ∃ m1 e1, RemoveDuplicates m e = .ok (m1, e1) ∧
      ∀ cs, SortCandlesByTimestamp true (m1.shown e1) cs → ∀ (m2 : Mem F) e2, m2.Valid e2 → m2.shown e2 = cs →
        ∃ m3 e3, RemoveOutsideRange m2 e2 start stop = .ok (m3, e3) ∧
          m3.shown e3 = truth.filter fun c => decide (inRange start stop c) := by
  obtain ⟨m1, e1, h1, -, h2⟩ := dups_run m e hv
  refine ⟨m1, e1, h1, fun cs hcs m2 e2 hv2 hsh2 => ?_⟩
  obtain ⟨m3, e3, h3, h4, -⟩ := C09_filter m2 e2 hv2 start stop
  refine ⟨m3, e3, h3, ?_⟩
  rw [h4, hsh2]
  obtain ⟨s1, s2, s3, s4⟩ := firsts_spec (m.shown e) []
  have ho := sorted_inOrder (by rw [h2]; exact s1) hcs
  refine inOrder_ext (ho.sublist List.filter_sublist) (ht.sublist List.filter_sublist) fun c => ?_
  rw [List.mem_filter, List.mem_filter, hcs.1.mem_iff, h2]
  have hin : ∀ d ∈ m.shown e, d ∈ truth := by
    intro d hd
    rw [hsh] at hd
    obtain ⟨pc, hpc, hd⟩ := List.mem_flatten.mp hd
    exact hsub pc hpc d hd
  have huniq : ∀ c ∈ truth, ∀ d ∈ truth, c.timeUnix = d.timeUnix → c = d := by
    intro c hc d hd hcd
    obtain ⟨i, hi, rfl⟩ := List.mem_iff_getElem.mp hc
    obtain ⟨j, hj, rfl⟩ := List.mem_iff_getElem.mp hd
    rcases lt_trichotomy i j with h | h | h
    · exact absurd hcd (List.pairwise_iff_getElem.mp ht i j hi hj h).ne
    · subst h; rfl
    · exact absurd hcd (List.pairwise_iff_getElem.mp ht j i hj hi h).ne'
  constructor
  · rintro ⟨hc, hr⟩
    exact ⟨hin c (s2.subset hc), hr⟩
  · rintro ⟨hc, hr⟩
    refine ⟨?_, hr⟩
    obtain ⟨pc, hpc, hcp⟩ := hall c hc (of_decide_eq_true hr)
    obtain ⟨d, hd, hdt⟩ := s4 c (by rw [hsh]; exact List.mem_flatten.mpr ⟨pc, hpc, hcp⟩) (by simp)
    rwa [← huniq d (hin d (s2.subset hd)) c hc hdt]

/-- **C133** A candle that is downloaded again does not replace the one that is there: of the candles of one instant the first piece's
stays. -/
theorem C133_first_stays {old new : List (Candle F)} {c : Candle F} (hc : c ∈ old) (hold : (old.map (·.timeUnix)).Nodup) (m : Mem F)
    (e : ItemH) (hv : m.Valid e) (hsh : m.shown e = old ++ new) :
    ∃ m' e', RemoveDuplicates m e = .ok (m', e') ∧ c ∈ m'.shown e' ∧
      ∀ d ∈ m'.shown e', d.timeUnix = c.timeUnix → d = c := by
  obtain ⟨m', e', h1, -, -, h4, -, h6, h7, -⟩ := C11_first_per_timestamp m e hv
  have huniq : ∀ d ∈ m'.shown e', d.timeUnix = c.timeUnix → d = c := by
    intro d hd hdc
    have h := h6 d hd
    rw [hsh, hdc, List.find?_append] at h
    have hf : old.find? (fun x => decide (x.timeUnix = c.timeUnix)) = some c := by
      obtain ⟨x, hx⟩ : ∃ x, old.find? (fun x => decide (x.timeUnix = c.timeUnix)) = some x := by
        rw [← Option.isSome_iff_exists, List.find?_isSome]
        exact ⟨c, hc, by simp⟩
      have hxm := List.mem_of_find?_eq_some hx
      have hxt : x.timeUnix = c.timeUnix := by simpa using List.find?_some hx
      rw [hx, List.inj_on_of_nodup_map hold hxm hc hxt]
    rw [hf] at h
    simpa using h.symm
  refine ⟨m', e', h1, ?_, huniq⟩
  obtain ⟨d, hd, hdc⟩ := h7 c (by rw [hsh]; exact List.mem_append_left _ hc)
  rwa [← huniq d hd hdc]

/-! ## Concrete cases -/

/-- Two candles of one instant that differ in their closes, in both orders. -/
def twiceMem : Mem (XF ℚ) :=
  { cells := [candleOf 7 1 2 1 1 0, candleOf 7 1 2 1 2 0], arrays := [[some 0, some 1], [some 1, some 0]] }

/-- The item over array `a`. -/
def twiceItem (a : Nat) : ItemH :=
  { exchange := "x", interval := 1, symbol := "", code := "", candles := { arr := a, off := 0, len := 2 } }

/-- **C133 is false for duplicates that are sorted first**: both orders are outcomes of the sorting, and which candle survives depends
on the outcome. -/
theorem C133_sort_first_refuted :
    SortCandlesByTimestamp true (twiceMem.shown (twiceItem 0)) (twiceMem.shown (twiceItem 0)) ∧
    SortCandlesByTimestamp true (twiceMem.shown (twiceItem 0)) (twiceMem.shown (twiceItem 1)) ∧
    (RemoveDuplicates twiceMem (twiceItem 0)).map (fun r => (r.1.shown r.2).map (·.close)) = .ok [.fin 1] ∧
    (RemoveDuplicates twiceMem (twiceItem 1)).map (fun r => (r.1.shown r.2).map (·.close)) = .ok [.fin 2] := by
  refine ⟨⟨List.Perm.refl _, by decide +kernel⟩, ⟨?_, by decide +kernel⟩, by decide +kernel, by decide +kernel⟩
  exact List.Perm.swap _ _ []

/-- Two overlapping pieces of three candles, the later one first: `[3, 1]` of the item in C10 and `[1, 2]`. -/
def piecesMem : Mem (XF ℚ) := { cells := haSample, arrays := [[some 2, some 0, some 0, some 1]] }

example : InOrder haSample ∧ piecesMem.shown { sampleItem with candles := { arr := 0, off := 0, len := 4 } } =
      [[candleOf 3 9 11 8 10 0, candleOf 1 1 2 1 2 0], [candleOf 1 1 2 1 2 0, candleOf 2 1 2 1 2 0]].flatten ∧
    (RemoveDuplicates piecesMem { sampleItem with candles := { arr := 0, off := 0, len := 4 } }).map
      (fun r => (r.1.shown r.2).map (·.timeUnix)) = .ok [3, 1, 2] := by
  refine ⟨by unfold InOrder; decide, by decide +kernel, by decide +kernel⟩

end Verif.Props
