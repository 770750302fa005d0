import Verif.Ind.SmcLater
import Verif.Props.SmcUnits

/-!
# Smart Money Concepts: what one more candle does to the records (C148)

A structure break is drawn backwards, from the swing candle to the candle that closed beyond it. So the records of earlier
candles do change when candles are added; but only in this way.
-/

set_option linter.unusedSectionVars false

namespace Verif.Props
open Verif Verif.Klines Verif.Ta Verif.Ind Verif.Ind.Smc GoFloat

variable {F : Type} [GoFloat F]

/-- The pass over the newest candle, after the passes over the others. -/
theorem calc_later {g : Cfg} {n : Nat} (hn : 200 < n) {x : Nat → Candle F} {e e' : Smc.Obj F}
    (h : Calculation g (ohlcOf n x) Obj.new = .ok e) (h' : Calculation g (ohlcOf (n + 1) x) Obj.new = .ok e') :
    e.data.length = n ∧ ∃ d, Changed (fun _ => true) (reach g n) (e.data ++ [Smc.Rec.zero]) d ∧
      (e'.data = d ∨ ∃ t r, idx d n = .ok r ∧ setAt d n { r with time := t } = .ok e'.data) := by
  have hA := fun m (hm : 200 < m) => Atr_ok (F := F) (p := 200) (n := m) (hi x) (lo x) (cl x) (.inr (by omega))
  have hcol : ∀ {α : Type} (f : Nat → α), tab n f <+: tab (n + 1) f := fun f => ⟨[f n], (tab_succ n f).symm⟩
  have ho : Begins (ohlcOf n x) (ohlcOf (n + 1) x) := ⟨hcol _, hcol _, hcol _, hcol _, hcol _⟩
  unfold Calculation at h h'
  have e1 : ∀ m, ((ohlcOf m x).close.length : Int) = (m : Int) := fun m => by simp [ohlcOf]
  rw [e1] at h h'
  have a1 : Atr (ohlcOf n x).high (ohlcOf n x).low (ohlcOf n x).close 200 = _ := hA n hn
  have a2 : Atr (ohlcOf (n + 1) x).high (ohlcOf (n + 1) x).low (ohlcOf (n + 1) x).close 200 = _ := hA (n + 1) (by omega)
  rw [a1, ok_bind, mk_nat, ok_bind] at h
  rw [a2, ok_bind, mk_nat, ok_bind] at h'
  obtain ⟨⟨e1, v1⟩, hl, h⟩ := of_bind h
  cases h
  obtain ⟨⟨e2, v2⟩, hl', h'⟩ := of_bind h'
  cases h'
  have hlen : e.data.length = n := by
    refine goFor_ok_inv (fun s : Smc.Obj F × Loc F => s.1.data.length = n) (fun i s s' h0 hb => ?_) (by simp) hl
    obtain ⟨d, hd, hc⟩ := step_changed hb
    rcases hc with hc | ⟨t, r, -, hc⟩
    · rw [hc, hd.1, h0]
    · rw [(setAt_spec hc).2.2.1, hd.1, h0]
  refine ⟨hlen, ?_⟩
  have hsim := goFor_sim (f := more (Smc.Rec.zero : Smc.Rec F))
    (body' := fun i s => Smc.step g (ohlcOf (n + 1) x) (tab (n + 1) (atrI 200 (hi x) (lo x) (cl x))) i s)
    (fun i s s' hb => step_more _ ho g (hcol _) i s s' hb) hl
  have hsplit : ∀ (s : Smc.Obj F × Loc F) body, goFor 1 ((n + 1 : Nat) : Int) s body = (goFor 1 (n : Int) s body >>= fun s' => body n s') := by
    intro s body
    unfold goFor
    have k1 : ((((n + 1 : Nat) : Int)) - 1).toNat = (n - 1) + 1 := by omega
    have k2 : ((n : Int) - 1).toNat = n - 1 := by omega
    rw [k1, k2, goForFrom_add]
    congr 1
    funext s'
    have k3 : (1 : Int) + ((n - 1 : Nat) : Int) = n := by omega
    rw [k3, goForFrom_succ]
    cases body n s' <;> rfl
  rw [hsplit] at hl'
  have hstart : more (Smc.Rec.zero : Smc.Rec F) ({ (Obj.new : Smc.Obj F) with data := List.replicate n Smc.Rec.zero }, Loc.new) =
      ({ (Obj.new : Smc.Obj F) with data := List.replicate (n + 1) Smc.Rec.zero }, Loc.new) := by
    simp only [more, moreE, List.replicate_succ']
  rw [hstart] at hsim
  rw [hsim, ok_bind] at hl'
  exact step_changed hl'

/-- **C148.** A series and the same series with one candle more, whose computations both return. The longer result has one
record more, and the times of the earlier records are as they were. For each of the eight kinds of structure lines there
is a candle `lo` such that the value of every earlier record is unchanged before `lo`, and from `lo` on is the value of
the newest record: a line that ends at the newest candle. For equal highs and equal lows it is a line that ends `conf`
candles before the newest one. -/
theorem C148_smc_history {g : Cfg} {it it' : Item F} {k : Candle F} (hk : it'.candles = it.candles ++ [k])
    {d d' : List (Smc.Rec F)} {e e' : Smc.Obj F} (h : smcRun g it = .ok (d, e)) (h' : smcRun g it' = .ok (d', e')) :
    d.length = it.candles.length ∧ d'.length = it.candles.length + 1 ∧
    (∀ j < it.candles.length, d'[j]?.map (·.time) = d[j]?.map (·.time)) ∧
    (∀ f : LineKind, f ≠ .eqh → f ≠ .eql → ∃ lo : Int, ∀ j < it.candles.length,
      d'[j]?.map f.of = if lo ≤ (j : Int) then d'[it.candles.length]?.map f.of else d[j]?.map f.of) ∧
    (∀ f : LineKind, f = .eqh ∨ f = .eql → ∃ (lo : Int) (c : F), ∀ j < it.candles.length,
      d'[j]?.map f.of = if lo ≤ (j : Int) ∧ (j : Int) ≤ it.candles.length - g.conf then some c else d[j]?.map f.of) := by
  obtain ⟨n, hn⟩ : ∃ n, n = it.candles.length := ⟨_, rfl⟩
  rw [← hn]
  let x : Nat → Candle F := fun i => (it'.candles)[i]?.getD (Candle.zero 0)
  have hx' : it'.candles = tab (n + 1) x := by
    refine eq_tab_of_forall (by rw [hk, List.length_append, hn]; rfl) fun i hi => ?_
    have : i < it'.candles.length := by rw [hk, List.length_append]; simp; omega
    simp [x, List.getElem?_eq_getElem this]
  have hx : it.candles = tab n x := by
    refine eq_tab_of_forall hn.symm fun i hi => ?_
    have h1 : i < it.candles.length := by omega
    have : it'.candles[i]? = it.candles[i]? := by rw [hk, List.getElem?_append_left h1]
    simp only [x]
    rw [this, List.getElem?_eq_getElem h1]
    rfl
  have h200 : 200 < n := by
    by_contra hlt
    obtain ⟨p, hp⟩ := smcRun_short (g := g) hx (by omega)
    rw [hp] at h
    cases h
  rw [smcRun_eq hx] at h
  rw [smcRun_eq hx'] at h'
  obtain ⟨e0, r, he⟩ := of_bind h
  cases he
  obtain ⟨e0', r', he'⟩ := of_bind h'
  cases he'
  obtain ⟨hlen, c, hc, hlast⟩ := calc_later h200 r r'
  have hclen : c.length = n + 1 := by rw [hc.1, List.length_append, hlen]; rfl
  have hfin : e'.data.length = n + 1 ∧ (∀ f : LineKind, ∀ j : Nat, e'.data[j]?.map f.of = c[j]?.map f.of) ∧
      ∀ j < n, e'.data[j]?.map (·.time) = c[j]?.map (·.time) := by
    rcases hlast with hl | ⟨t, r, hr, hl⟩
    · rw [hl]; exact ⟨hclen, fun _ _ => rfl, fun _ _ => rfl⟩
    · obtain ⟨-, -, l1, l2⟩ := setAt_spec hl
      have hr' : c[n]? = some r := by
        unfold idx at hr
        rw [if_pos (by omega), Int.toNat_natCast] at hr
        cases hq : c[n]? with
        | none => rw [hq] at hr; cases hr
        | some y => rw [hq] at hr; cases hr; rfl
      refine ⟨l1.trans hclen, fun f j => ?_, fun j hj => ?_⟩
      · rw [l2]
        split
        · next hj =>
          have : j = n := by omega
          rw [this, hr']
          cases f <;> rfl
        · rfl
      · rw [l2, if_neg (by omega)]
  have hold : ∀ {α : Type} (f : Smc.Rec F → α), ∀ j < n, (e.data ++ [Smc.Rec.zero])[j]?.map f = e.data[j]?.map f := by
    intro α f j hj
    rw [List.getElem?_append_left (by omega)]
  refine ⟨hlen, hfin.1, fun j hj => ?_, fun f h1 h2 => ?_, fun f hf => ?_⟩
  · rw [hfin.2.2 j hj, hc.2.1, hold _ j hj]
  · obtain ⟨lo, v, hd⟩ := (hc.2.2 f).1 rfl
    have hre : reach g n f = n := by cases f <;> first | rfl | exact absurd rfl h1 | exact absurd rfl h2
    rw [hre] at hd
    by_cases hlo : lo ≤ n
    · refine ⟨lo, fun j hj => ?_⟩
      rw [hfin.2.1, hfin.2.1, hd j, hd n, if_pos (⟨hlo, le_refl _⟩ : lo ≤ (n : Int) ∧ (n : Int) ≤ n)]
      by_cases hj' : lo ≤ (j : Int)
      · rw [if_pos ⟨hj', by omega⟩, if_pos hj', List.getElem?_eq_getElem (by simp [hlen]; omega),
          List.getElem?_eq_getElem (by simp [hlen])]
        rfl
      · rw [if_neg (by omega), if_neg hj', hold _ j hj]
    · refine ⟨n + 1, fun j hj => ?_⟩
      rw [hfin.2.1, hd j, if_neg (by omega), if_neg (by omega), hold _ j hj]
  · obtain ⟨lo, v, hd⟩ := (hc.2.2 f).1 rfl
    have hre : reach g n f = n - g.conf := by rcases hf with rfl | rfl <;> rfl
    rw [hre] at hd
    refine ⟨lo, v, fun j hj => ?_⟩
    rw [hfin.2.1, hd j, hold f.of j hj, hold (fun _ => v) j hj, List.getElem?_eq_getElem (by omega)]
    rfl

namespace SmcWit

set_option maxRecDepth 100000 in
theorem exU_before : (runOf gU 204 (col exU) Obj.new).toOption.map seen = some ([], some (.fin 0)) := by decide +kernel

end SmcWit
open SmcWit

/-- **C148 (refuted part).** Earlier records are not final: over the first 204 candles of a series the last record is not
part of a break of structure; with the next candle it is. -/
theorem C148_smc_history_refuted : ∃ (g : Cfg) (it it' : Item (XF ℚ)) (k : Candle (XF ℚ)) (d d' : List (Smc.Rec (XF ℚ)))
    (e e' : Smc.Obj (XF ℚ)), it'.candles = it.candles ++ [k] ∧ smcRun g it = .ok (d, e) ∧ smcRun g it' = .ok (d', e') ∧
      d[203]?.map (·.highBosShort) = some (.fin 0) ∧ d'[203]?.map (·.highBosShort) = some (.fin 12) := by
  obtain ⟨e, h0, h2⟩ := of_toOption_map exU_before
  obtain ⟨e', h0', h2'⟩ := of_toOption_map exU_run
  exact ⟨gU, item 204 exU, item 205 exU, col exU 204, _, _, e, e', tab_succ _ _, runOf_ok (by omega) h0, runOf_ok (by omega) h0',
    (Prod.mk.inj h2).2, (Prod.mk.inj h2').2⟩

/-- C148: the hypotheses are met by that series. -/
example : ∃ d e d' e', (item 205 exU).candles = (item 204 exU).candles ++ [col exU 204] ∧
    smcRun gU (item 204 exU) = .ok (d, e) ∧ smcRun gU (item 205 exU) = .ok (d', e') := by
  obtain ⟨e, h0, -⟩ := of_toOption_map exU_before
  obtain ⟨e', h0', -⟩ := of_toOption_map exU_run
  exact ⟨_, e, _, e', tab_succ _ _, runOf_ok (by omega) h0, runOf_ok (by omega) h0'⟩

end Verif.Props
