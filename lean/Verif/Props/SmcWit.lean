import Verif.Props.SmcSeries

/-!
# Smart Money Concepts: concrete runs

Series over the rationals on which the code departs from the expected behaviour, and on which the theorems of
`Verif/Props/Smc.lean` are not vacuous. A row is (high, low, close); candle `k` has the time `k` seconds.
-/

set_option linter.unusedSectionVars false

namespace Verif.Props
open Verif Verif.Klines Verif.Ta Verif.Ind Verif.Ind.Smc GoFloat

namespace SmcWit

/-- A deep low at candle 2, shallower ones and a high later, then closes above that high and below the deep low. -/
def exD : List (Nat × ℚ × ℚ × ℚ) :=
  [(2, 10, 5, 10), (185, 10, 8, 10), (187, 12, 10, 10), (193, 10, 3, 10), (199, 13, 10, 13), (200, 13, 4, 4)]

/-- Swing length 190, no order block wanted. -/
def gD : Cfg := { Cfg.new 190 3 1 with number := 0 }

set_option maxRecDepth 100000 in
theorem exD_run : ((runOf gD 201 (col exD) Obj.new).toOption.map fun e =>
    (e.bear.length, e.data[199]?.map fun q => (q.lowChochLong, q.highBosShort))) = some (1, some (.fin 5, .fin 12)) := by
  decide +kernel

end SmcWit
open SmcWit

theorem of_toOption_map {α β : Type} {r : Go α} {f : α → β} {b : β} (h : r.toOption.map f = some b) :
    ∃ a, r = .ok a ∧ f a = b := by
  cases r with
  | error p => cases h
  | ok a => exact ⟨a, rfl, by simpa [Except.toOption] using h⟩

theorem runOf_ok {g : Cfg} {n : Nat} (hn : 200 < n) {ex : List (Nat × ℚ × ℚ × ℚ)} {e : Smc.Obj (XF ℚ)}
    (h : runOf g n (col ex) Obj.new = .ok e) : smcRun g (item n ex) = .ok (e.data, e) := by
  rw [smcRun_eq (n := n) (x := col ex) rfl, runOf_eq g hn, h, ok_bind]

theorem twoRuns_ok {g : Cfg} {n : Nat} (hn : 200 < n) {ex : List (Nat × ℚ × ℚ × ℚ)} {a b : Level (XF ℚ)}
    (h : (twoRuns g n (col ex)).toOption = some (a, b)) :
    ∃ e c d' e', smcRun g (item n ex) = .ok (e.data, e) ∧ GetOHLC (item n ex) = .ok c ∧
      Smc.GetData g c (Smc.Clear e) = .ok (d', e') ∧ e.weakHigh = a ∧ e'.weakHigh = b := by
  unfold twoRuns at h
  cases h1 : runOf g n (col ex) Obj.new with
  | error p => rw [h1] at h; cases h
  | ok e =>
    rw [h1] at h
    cases h2 : runOf g n (col ex) (Smc.Clear e) with
    | error p => simp only [ok_bind, h2] at h; cases h
    | ok e' =>
      simp only [ok_bind, h2] at h
      cases h
      refine ⟨e, ohlcOf n (col ex), e'.data, e', runOf_ok hn h1, GetOHLC_tab rfl, ?_, rfl, rfl⟩
      have hz : (Smc.Clear e).data.length = 0 := rfl
      rw [Smc.GetData, if_pos hz, runOf_eq g hn, h2]
      rfl

/-- **C69 (refuted part).** A run can leave more than `OrderBlockNumber` order blocks in a list: here none is wanted
and one is kept. -/
theorem C69_smc_blocks_refuted : ∃ (g : Cfg) (it : Item (XF ℚ)) (n : Nat) (x : Nat → Candle (XF ℚ)) (e : Smc.Obj (XF ℚ)),
    it.candles = tab n x ∧ Clean XF.ordKey n x ∧ smcRun g it = .ok (e.data, e) ∧ 0 ≤ g.number ∧
      g.number < e.bear.length := by
  obtain ⟨e, h0, h2⟩ := of_toOption_map exD_run
  have h1 := runOf_ok (by omega) h0
  simp only [Prod.mk.injEq] at h2
  exact ⟨gD, item 201 exD, 201, col exD, e, rfl, clean _ _, h1, le_refl _, by rw [h2.1]; decide⟩

/-- **C71 (refuted part).** A run can report a weak high whose value is the high of no candle carrying its time: here
the time of candle 0, whose high is 10, with the value 30. -/
theorem C71_smc_levels_refuted : ∃ (g : Cfg) (it : Item (XF ℚ)) (n : Nat) (x : Nat → Candle (XF ℚ)) (e : Smc.Obj (XF ℚ)),
    it.candles = tab n x ∧ Clean XF.ordKey n x ∧ smcRun g it = .ok (e.data, e) ∧ e.weakHigh ≠ .zero ∧
      ∀ m < n, ti x m = e.weakHigh.time → hi x m ≠ e.weakHigh.value := by
  obtain ⟨e, c, d', e', h1, h2, h3, h4, h5⟩ := twoRuns_ok (by omega) exC_run
  refine ⟨_, _, 201, col exC, e, rfl, clean _ _, h1, by rw [h4]; decide, fun m hm ht => ?_⟩
  rw [h4, ti_col] at ht
  have : m = 0 := by simpa using ht
  subst this
  rw [h4]
  decide +kernel

/-- **C73 (refuted part).** After `Clear` a second computation over the same candles can give something else than the
first: here the weak high carries another time. (`Clear` leaves the state of the swing detection as it is.) -/
theorem C73_smc_clear_refuted : ∃ (g : Cfg) (it : Item (XF ℚ)) (c : OHLC (XF ℚ)) (d d' : List (Smc.Rec (XF ℚ)))
    (e e' : Smc.Obj (XF ℚ)), GetOHLC it = .ok c ∧ Smc.GetData g c Obj.new = .ok (d, e) ∧
      Smc.GetData g c (Smc.Clear e) = .ok (d', e') ∧ e'.weakHigh ≠ e.weakHigh := by
  obtain ⟨e, c, d', e', h1, h2, h3, h4, h5⟩ := twoRuns_ok (by omega) exC_run
  refine ⟨_, _, c, e.data, d', e, e', h2, ?_, h3, by rw [h4, h5]; decide⟩
  rw [smcRun, h2, ok_bind] at h1
  exact h1

/-- **C74 (refuted part).** A long-term downward change of character can be reported although no close has ever
crossed over a swing high of that length: the code looks at the short-term trend. -/
theorem C74_smc_choch_refuted : ∃ (g : Cfg) (S : Nat) (it : Item (XF ℚ)) (n : Nat) (x : Nat → Candle (XF ℚ))
    (e : Smc.Obj (XF ℚ)) (j : Nat) (r : Smc.Rec (XF ℚ)), g.swing = S ∧ it.candles = tab n x ∧ Clean XF.ordKey n x ∧
      NonNeg (cl x) ∧ smcRun g it = .ok (e.data, e) ∧ e.data[j]? = some r ∧ r.lowChochLong ≠ fl 0 ∧
      ∀ i < n, ¬ UpBreak XF.ordKey (hi x) (cl x) S i := by
  obtain ⟨e, h0, h2⟩ := of_toOption_map exD_run
  have h1 := runOf_ok (by omega) h0
  simp only [Prod.mk.injEq] at h2
  obtain ⟨r, hr, hr'⟩ := Option.map_eq_some_iff.mp h2.2
  refine ⟨gD, 190, item 201 exD, 201, col exD, e, 199, r, rfl, rfl, clean _ _, ?_, h1, hr, ?_, ?_⟩
  · intro j
    show (XF.fin (row exD j).2.2 <. fl 0) = false
    rw [XF.fl_fin, XF.lt_fin]
    have hall : ∀ p ∈ exD, 0 ≤ p.2.2.2 := by decide +kernel
    simp only [row, decide_eq_false_iff_not, not_lt, Int.cast_zero]
    cases hf : exD.find? fun p => p.1 = j with
    | none => decide
    | some p => exact hall p (List.mem_of_find?_eq_some hf)
  · rw [(Prod.mk.inj hr').1]; decide
  · rintro i hlt ⟨-, m, hm, hp, -⟩
    have h1 := hp 1 (by omega) (by omega)
    have hrow : ∀ m ≤ 10, (row exD (m + 1)).1 = 10 ∧ (row exD m).1 = 10 := by decide +kernel
    obtain ⟨a, b⟩ := hrow m (by omega)
    have e1 : ∀ k, hi (col exD) k = .fin (row exD k).1 := fun k => rfl
    rw [e1, e1, a, b] at h1
    exact lt_irrefl _ h1

/-! ## The hypotheses are met -/

/-- C67, C68, C72, C74: a run over a series without NaN that draws lines. -/
example : Clean XF.ordKey 201 (col exD) ∧ gD.enable = false ∧ gD.swing = (190 : Nat) ∧
    ∃ e r, smcRun gD (item 201 exD) = .ok (e.data, e) ∧ e.data[199]? = some r ∧ r.highBosShort = .fin 12 ∧
      r.lowChochLong = .fin 5 := by
  obtain ⟨e, h0, h2⟩ := of_toOption_map exD_run
  simp only [Prod.mk.injEq] at h2
  obtain ⟨r, hr, hr'⟩ := Option.map_eq_some_iff.mp h2.2
  exact ⟨clean _ _, rfl, rfl, e, r, runOf_ok (by omega) h0, hr, (Prod.mk.inj hr').2, (Prod.mk.inj hr').1⟩

/-- C69: a run that ends with a nonempty list of order blocks. -/
example : ∃ e, smcRun gD (item 201 exD) = .ok (e.data, e) ∧ e.bear ≠ [] := by
  obtain ⟨e, h0, h2⟩ := of_toOption_map exD_run
  refine ⟨e, runOf_ok (by omega) h0, fun h => ?_⟩
  rw [Prod.mk.injEq, h] at h2
  exact absurd h2.1 (by decide)

/-- C70: narrow candles between swing and break. -/
example : ∃ j, 2 ≤ j ∧ j ≤ 5 ∧ Narrow (hi (col exC)) (lo (col exC)) (fun _ => (.fin 1 : XF ℚ)) j :=
  ⟨3, by omega, by omega, by unfold Narrow; decide +kernel⟩

/-- C71: a run that sets a level with the time of a candle. -/
example : ∃ e, smcRun (Cfg.new 195 3 1) (item 201 exC) = .ok (e.data, e) ∧ e.weakHigh = ⟨0, .fin 30⟩ := by
  obtain ⟨e, c, d', e', h1, h2, h3, h4, h5⟩ := twoRuns_ok (by omega) exC_run
  exact ⟨e, h1, h4⟩

/-- C73: `GetData` returns a nonempty list. -/
example : ∃ c d e, Smc.GetData gD c (Obj.new : Smc.Obj (XF ℚ)) = .ok (d, e) ∧ d ≠ [] := by
  obtain ⟨e, v, h, hI⟩ := smcRun_inv (g := gD) (S := 190) xfLaws (it := item 201 exD) rfl (clean 201 exD) rfl
    (fun h => by cases h) (by omega)
  rw [smcRun, GetOHLC_tab (n := 201) (x := col exD) rfl, ok_bind] at h
  refine ⟨_, _, _, h, fun h0 => ?_⟩
  have := hI.core.len
  rw [h0] at this
  cases this

end Verif.Props
