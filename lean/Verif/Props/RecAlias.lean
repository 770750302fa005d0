import Verif.Ind.RecHeap
import Verif.Props.Live

/-!
# The slice `GetData` returns is the object's own (C141)
-/

namespace Verif.Props
open Verif Verif.Klines Verif.Ta Verif.Ind GoFloat

variable {F : Type} [GoMath F]

/-- How the `Calculation` of a strategy stores its records. -/
inductive Stores : (I : Strat F) → (Item F → I.S) → Store → Prop
  | append {I : Strat F} {see : Item F → I.S} {start : Nat} (h : Extends I see start) : Stores I see .append
  | make {I : Strat F} {see : Item F → I.S} {start : Nat} (h : Rebuilds I see start) : Stores I see .make

theorem stores_compute {I : Strat F} {see : Item F → I.S} {k : Store} (h : Stores I see k) (it : Item F) :
    (∃ ds, ds.length = it.candles.length ∧ I.compute (see it) [] = .ok ds ∧
      ∀ d, I.compute (see it) d = .ok (match k with | .append => d ++ ds | .make => ds)) ∨
    ∀ d, ∃ p, I.compute (see it) d = .error p := by
  obtain ⟨x, hx⟩ := candles_tab it
  cases h with
  | append h =>
    obtain ⟨-, hsrc, -, -⟩ := points_loop (.inr h)
    obtain ⟨ok, G, hA⟩ := extends_appends h
    obtain ⟨s, hs, h1, h2⟩ := hA it _ x hx
    rw [hsrc] at hs; cases hs
    by_cases hok : ok it.candles.length
    · exact .inl ⟨tab it.candles.length (G x), by simp, by simpa using h1 hok [], h1 hok⟩
    · exact .inr (h2 hok)
  | make h =>
    obtain ⟨-, hsrc, -, -⟩ := points_loop (.inl h)
    obtain ⟨ok, G, hA⟩ := rebuilds_makes h
    obtain ⟨s, hs, h1, h2⟩ := hA it _ x hx
    rw [hsrc] at hs; cases hs
    by_cases hok : ok it.candles.length
    · exact .inl ⟨tab it.candles.length (G x), by simp, h1 hok [], h1 hok⟩
    · exact .inr (h2 hok)

/-- **C141** (the model of memory): `Calculation` in memory shows what `Calculation` of the model without memory computes,
for every capacity the run-time may choose. -/
theorem C141_refines {I : Strat F} {see : Item F → I.S} {k : Store} (h : Stores I see k) {grow : Nat → Nat} {zero : I.D}
    {m : RMem I.D} {e : ObjR I.toIndicator} {it : Item F} (he : e.src = see it) (hv : m.Valid e.data) :
    (∃ m' e', e.Calculation grow zero k m = .ok (m', e') ∧ (m.view e).Calculation = .ok (m'.view e') ∧ m'.Valid e'.data) ∨
    (∃ p, e.Calculation grow zero k m = .error p) ∧ ∃ p, (m.view e).Calculation = .error p := by
  rcases stores_compute h it with ⟨ds, -, h1, h2⟩ | h2
  · refine .inl ?_
    cases k with
    | append =>
      refine ⟨_, _, by unfold ObjR.Calculation; rw [he, h1]; rfl, ?_, ?_⟩
      · simp only [Obj.Calculation, RMem.view, he, h2, ok_bind, pure_eq_ok, (RMem.appendAll_spec ds hv rfl).2.1]
      · exact (RMem.appendAll_spec ds hv rfl).1
    | make =>
      have hb : RMem.back (m ++ [ds]) ⟨m.length, ds.length⟩ = ds := RMem.back_new ds _
      refine ⟨_, _, by unfold ObjR.Calculation; rw [he, h1]; rfl, ?_, ?_⟩
      · simp only [Obj.Calculation, RMem.view, he, h2, ok_bind, pure_eq_ok, RMem.makeAll, RMem.shown, hb, List.take_length]
      · exact ⟨by simp [RMem.makeAll], by simp [RMem.makeAll, hb]⟩
  · obtain ⟨p, hp⟩ := h2 []
    obtain ⟨q, hq⟩ := h2 (m.shown e.data)
    refine .inr ⟨⟨p, by unfold ObjR.Calculation; rw [he, hp]; rfl⟩, q, ?_⟩
    simp only [Obj.Calculation, RMem.view, he, hq]
    rfl

/-- **C141** (writing): `GetData` returns the object's own records. A write to record `i` of the result changes record `i` of
the object and may change the sides of candles `i` and `i + 1`, and no other side. -/
theorem C141_write {I : Strat F} {see : Item F → I.S} {start : Nat} (h : Points I see start) {m : RMem I.D}
    {e : ObjR I.toIndicator} {it : Item F} (he : e.src = see it) (hv : m.Valid e.data)
    (hl : e.data.len = it.candles.length) {i : Nat} (hi : i < e.data.len) (v : I.D) (grow : Nat → Nat) (zero : I.D) (k : Store) :
    e.GetData grow zero k m = .ok (e.data, m, e) ∧
    ∃ m', m.write e.data i v = .ok m' ∧ (m'.view e).data = (m.view e).data.set i v ∧
      ∃ s s', I.AnalysisSide (m.view e) = .ok (s, m.view e) ∧ I.AnalysisSide (m'.view e) = .ok (s', m'.view e) ∧
        s'.length = s.length ∧ ∀ j, j ≠ i → j ≠ i + 1 → s'[j]? = s[j]? := by
  refine ⟨by unfold ObjR.GetData; rw [if_neg (by omega)]; rfl, ?_⟩
  obtain ⟨m', hw, -, hs⟩ := RMem.write_spec hv hi v
  have hs := (hs _ hv).2
  rw [if_pos rfl] at hs
  refine ⟨m', hw, hs, ?_⟩
  obtain ⟨h1, -, ⟨r, hr⟩, -⟩ := points_loop h
  obtain ⟨x, hx⟩ := candles_tab it
  obtain ⟨rule, e1, e2, -⟩ := hr it _ x hx
  have hlen : (m.shown e.data).length = it.candles.length := by
    rw [RMem.shown, List.length_take, Nat.min_eq_left hv.2, hl]
  obtain ⟨g, hg⟩ : ∃ g, m.shown e.data = tab it.candles.length g := by
    obtain ⟨g, hg⟩ := exists_tab (m.shown e.data) (fun h => by rw [h] at hlen; simp at hlen; omega)
    exact ⟨g, by rw [← hlen]; exact hg⟩
  have hg' : m'.shown e.data = tab it.candles.length (Function.update g i v) := by
    rw [hs, hg]
    refine eq_tab_of_forall (by simp) fun j hj => ?_
    rw [List.getElem?_set]
    by_cases hij : i = j
    · subst hij
      rw [if_pos rfl, if_pos (by simpa using hj), Function.update_self]
    · rw [if_neg hij, tab_getElem?_lt hj, Function.update_of_ne (fun h => hij h.symm)]
  have run : ∀ g : Nat → I.D, I.sides (see it) (tab it.candles.length g) = .ok (tab it.candles.length fun k =>
      if start ≤ k ∧ k < it.candles.length then r (g (k - 1)) (g k) (cl x (k - 1)) (cl x k) else Buy) := fun g => by
    rw [e1, sideLoop_long (fun k => if start ≤ k ∧ k < it.candles.length then r (g (k - 1)) (g k) (cl x (k - 1)) (cl x k) else Buy)
      le_rfl (fun k hk hk' => by rw [e2 _ _ _ hk]; simp [hk, hk']) h1
      (fun k hk => if_neg (by omega))]
  have hn0 : it.candles.length ≠ 0 := by omega
  have side : ∀ (mm : RMem I.D) (g : Nat → I.D), mm.shown e.data = tab it.candles.length g →
      I.AnalysisSide (mm.view e) = .ok (tab it.candles.length fun k =>
        if start ≤ k ∧ k < it.candles.length then r (g (k - 1)) (g k) (cl x (k - 1)) (cl x k) else Buy, mm.view e) := fun mm g hg => by
    have : ¬ (mm.view e).data.length = 0 := by simp only [RMem.view]; rw [hg, tab_length]; exact hn0
    simp only [Strat.AnalysisSide, Obj.read, Obj.ensure, if_neg this, pure_eq_ok, ok_bind]
    simp only [RMem.view, he, hg, run, ok_bind]
  refine ⟨_, _, side m g hg, side m' _ hg', by simp, fun j hj hj' => ?_⟩
  by_cases hjn : j < it.candles.length
  · rw [tab_getElem?_lt hjn, tab_getElem?_lt hjn]
    by_cases hc : start ≤ j ∧ j < it.candles.length
    · rw [if_pos hc, if_pos hc, Function.update_of_ne hj, Function.update_of_ne (by omega)]
    · rw [if_neg hc, if_neg hc]
  · rw [List.getElem?_eq_none (by simpa using hjn), List.getElem?_eq_none (by simpa using hjn)]

/-- **C141** (recalculation where `Calculation` appends): the object then shows the old records, with whatever was written to
them, followed by the new ones. A slice kept from before still shows what it showed. What is written through it afterwards
reaches the object exactly if the old array had room for all the new records. -/
theorem C141_recalculated {I : Strat F} {see : Item F → I.S} {start : Nat} (_ : Extends I see start) {grow : Nat → Nat}
    {zero : I.D} {m : RMem I.D} {e : ObjR I.toIndicator} {it : Item F} (he : e.src = see it) (hv : m.Valid e.data)
    {ds : List I.D} (hd : I.compute (see it) [] = .ok ds) :
    ∃ m' e', e.Calculation grow zero .append m = .ok (m', e') ∧ m'.shown e'.data = m.shown e.data ++ ds ∧
      m'.shown e.data = m.shown e.data ∧
      ∀ i v, i < e.data.len → ∃ m'', m'.write e.data i v = .ok m'' ∧ m''.shown e.data = (m.shown e.data).set i v ∧
        m''.shown e'.data = if e.data.len + ds.length ≤ (m.back e.data).length then (m.shown e.data).set i v ++ ds
          else m.shown e.data ++ ds := by
  obtain ⟨⟨m', s'⟩, hr⟩ : ∃ r, r = m.appendAll grow zero e.data ds := ⟨_, rfl⟩
  obtain ⟨v1, k1, l1, n1, in1, out1, o1⟩ := RMem.appendAll_spec ds hv hr.symm
  obtain ⟨w1, w2⟩ := o1 e.data hv (fun _ => le_rfl)
  refine ⟨m', { e with data := s' }, by unfold ObjR.Calculation; rw [he, hd, ok_bind, ← hr]; rfl, k1, w2, fun i v hi => ?_⟩
  obtain ⟨m'', hw, -, hs⟩ := RMem.write_spec w1 hi v
  refine ⟨m'', hw, by rw [(hs _ w1).2, if_pos rfl, w2], ?_⟩
  rw [(hs _ v1).2]
  have hlen : (m.shown e.data).length = e.data.len := by
    rw [RMem.shown, List.length_take, Nat.min_eq_left hv.2]
  by_cases hc : e.data.len + ds.length ≤ (m.back e.data).length
  · rw [if_pos (in1 hc), if_pos hc, k1, List.set_append_left _ _ (by omega)]
  · have := out1 (by omega)
    have := hv.1
    rw [if_neg (by show ¬ s'.arr = e.data.arr; omega), if_neg hc, k1]

/-- **C141** (recalculation where `Calculation` builds a new slice): the object shows only the new records, and it and the
kept slice no longer have anything to do with each other. -/
theorem C141_rebuilt {I : Strat F} {see : Item F → I.S} {start : Nat} (_ : Rebuilds I see start) {grow : Nat → Nat}
    {zero : I.D} {m : RMem I.D} {e : ObjR I.toIndicator} {it : Item F} (he : e.src = see it) (hv : m.Valid e.data)
    {ds : List I.D} (hd : I.compute (see it) [] = .ok ds) :
    ∃ m' e', e.Calculation grow zero .make m = .ok (m', e') ∧ m'.shown e'.data = ds ∧ m'.shown e.data = m.shown e.data ∧
      (∀ i v, i < e.data.len → ∃ m'', m'.write e.data i v = .ok m'' ∧ m''.shown e'.data = ds) ∧
      ∀ i v, i < e'.data.len → ∃ m'', m'.write e'.data i v = .ok m'' ∧ m''.shown e.data = m.shown e.data := by
  have hb : RMem.back (m ++ [ds]) ⟨m.length, ds.length⟩ = ds := RMem.back_new ds _
  have ho : RMem.back (m ++ [ds]) e.data = m.back e.data := RMem.back_old hv.1 _
  have w1 : RMem.Valid (m ++ [ds]) e.data := ⟨by have := hv.1; simp; omega, by rw [ho]; exact hv.2⟩
  have w2 : RMem.Valid (m ++ [ds]) ⟨m.length, ds.length⟩ := ⟨by simp, by rw [hb]⟩
  have ne := hv.1
  refine ⟨m ++ [ds], { e with data := ⟨m.length, ds.length⟩ }, by unfold ObjR.Calculation; rw [he, hd]; rfl, ?_, ?_, ?_, ?_⟩
  · simp only [RMem.shown, hb, List.take_length]
  · simp only [RMem.shown, ho]
  · intro i v hi
    obtain ⟨m'', hw, -, hs⟩ := RMem.write_spec w1 hi v
    refine ⟨m'', hw, ?_⟩
    rw [(hs _ w2).2, if_neg (by show ¬ m.length = e.data.arr; omega)]
    simp only [RMem.shown, hb, List.take_length]
  · intro i v hi
    obtain ⟨m'', hw, -, hs⟩ := RMem.write_spec w2 hi v
    refine ⟨m'', hw, ?_⟩
    rw [(hs _ w1).2, if_neg (by show ¬ e.data.arr = m.length; omega)]
    simp only [RMem.shown, ho]

/-- Two appends to the same slice. -/
theorem append_twice {D : Type} {grow : Nat → Nat} {zero : D} {m m₁ m₂ : RMem D} {s s₁ s₂ : RSlice} (hv : m.Valid s) {a b : D}
    {vs : List D} (h1 : m.append grow zero s a = (m₁, s₁)) (h2 : m₁.appendAll grow zero s (b :: vs) = (m₂, s₂)) :
    m₁.shown s₁ = m.shown s ++ [a] ∧ m₂.shown s₂ = m.shown s ++ b :: vs ∧
      m₂.shown s₁ = m.shown s ++ [if s.len < (m.back s).length then b else a] := by
  obtain ⟨v1, k1, l1, n1, in1, out1, o1⟩ := RMem.append_spec hv a h1
  obtain ⟨w1, w2⟩ := o1 s hv
  have w2 := w2 (fun _ => le_rfl)
  obtain ⟨v2, k2, -⟩ := RMem.appendAll_spec _ w1 h2
  refine ⟨k1, by rw [k2, w2], ?_⟩
  by_cases hc : s.len < (m.back s).length
  · rw [if_pos hc]
    obtain ⟨⟨m₃, s₃⟩, hr⟩ : ∃ r, r = m₁.append grow zero s b := ⟨_, rfl⟩
    rw [RMem.appendAll, ← hr] at h2
    obtain ⟨a1, c1⟩ := in1 hc
    have hcap : s.len < (m₁.back s).length := by
      have : m₁.back s = m₁.back s₁ := by unfold RMem.back; rw [a1]
      rw [this, c1]; exact hc
    obtain ⟨v3, k3, l3, -, in3, -, -⟩ := RMem.append_spec w1 b hr.symm
    have e3 : s₃ = s₁ := by
      have := (in3 hcap).1
      cases s₃; cases s₁; simp only [RSlice.mk.injEq] at *; omega
    subst e3
    obtain ⟨-, -, -, -, -, -, o4⟩ := RMem.appendAll_spec vs v3 h2
    rw [(o4 s₃ v3 (fun _ => le_rfl)).2, k3, w2]
  · rw [if_neg hc]
    have := out1 (by omega)
    obtain ⟨-, -, -, -, -, -, o4⟩ := RMem.appendAll_spec _ w1 h2
    have := hv.1
    rw [(o4 s₁ v1 (fun h => by omega)).2, k1]

omit [GoMath F] in
/-- **C141** (two callers): two parts of a program each append one record of their own to the result of `GetData`. The first
one finds the second one's record in its slice exactly if the array of the object had room. -/
theorem C141_two_appends {I : Strat F} {grow : Nat → Nat} {zero : I.D} {m m₁ m₂ : RMem I.D} {e : ObjR I.toIndicator}
    {s₁ s₂ : RSlice} (hv : m.Valid e.data) {a b : I.D} (h1 : m.append grow zero e.data a = (m₁, s₁))
    (h2 : m₁.append grow zero e.data b = (m₂, s₂)) :
    m₂.shown s₂ = m.shown e.data ++ [b] ∧
      m₂.shown s₁ = m.shown e.data ++ [if e.data.len < (m.back e.data).length then b else a] ∧
      m₂.shown e.data = m.shown e.data := by
  have h3 : m₁.appendAll grow zero e.data [b] = (m₂, s₂) := by rw [RMem.appendAll, h2]; rfl
  obtain ⟨-, k2, k3⟩ := append_twice hv h1 h3
  obtain ⟨-, -, -, -, -, -, o1⟩ := RMem.append_spec hv a h1
  obtain ⟨w1, w2⟩ := o1 e.data hv
  obtain ⟨-, -, -, -, -, -, o2⟩ := RMem.append_spec w1 b h2
  exact ⟨k2, k3, ((o2 e.data w1).2 fun _ => le_rfl).trans (w2 fun _ => le_rfl)⟩

/-- **C141** (a caller's record is overwritten): a record appended to the result of `GetData` is replaced by the first new
record of the object at the next `Calculation`, exactly if the array of the object had room. -/
theorem C141_overwritten {I : Strat F} {see : Item F → I.S} {start : Nat} (_ : Extends I see start) {grow : Nat → Nat}
    {zero : I.D} {m m₁ : RMem I.D} {e : ObjR I.toIndicator} {it : Item F} (he : e.src = see it) (hv : m.Valid e.data)
    {r : I.D} {ds : List I.D} (hd : I.compute (see it) [] = .ok (r :: ds)) {a : I.D} {s₁ : RSlice}
    (h1 : m.append grow zero e.data a = (m₁, s₁)) :
    ∃ m₂ e', e.Calculation grow zero .append m₁ = .ok (m₂, e') ∧ m₁.shown s₁ = m.shown e.data ++ [a] ∧
      m₂.shown s₁ = m.shown e.data ++ [if e.data.len < (m.back e.data).length then r else a] := by
  obtain ⟨⟨m₂, s₂⟩, hr⟩ : ∃ q, q = m₁.appendAll grow zero e.data (r :: ds) := ⟨_, rfl⟩
  obtain ⟨k1, -, k3⟩ := append_twice hv h1 hr.symm
  exact ⟨m₂, { e with data := s₂ }, by unfold ObjR.Calculation; rw [he, hd, ok_bind, ← hr]; rfl, k1, k3⟩

/-! ### Examples -/

/-- A record with this value. -/
def valueRec (q : ℚ) : Rec (XF ℚ) := ⟨0, .fin q⟩

/-- An object with three records: the write to the second one turns the sides of the second and third candle. -/
example : ∃ m', RMem.write [[valueRec 1, valueRec 2, valueRec 3]] ⟨0, 3⟩ 1 (valueRec (-2)) = .ok m' ∧
    (APO (F := XF ℚ) 1 2).AnalysisSide (RMem.view (I := (APO (F := XF ℚ) 1 2).toIndicator) [[valueRec 1, valueRec 2, valueRec 3]]
      ⟨closing [1, 2, 3], ⟨0, 3⟩⟩) = .ok ([Buy, Hold, Hold], ⟨closing [1, 2, 3], [valueRec 1, valueRec 2, valueRec 3]⟩) ∧
    (APO (F := XF ℚ) 1 2).AnalysisSide (RMem.view (I := (APO (F := XF ℚ) 1 2).toIndicator) m' ⟨closing [1, 2, 3], ⟨0, 3⟩⟩) =
      .ok ([Buy, Sell, Buy], ⟨closing [1, 2, 3], [valueRec 1, valueRec (-2), valueRec 3]⟩) :=
  ⟨_, rfl, by rfl, by rfl⟩

example : ∃ m', RMem.write [[valueRec 1, valueRec 2, valueRec 3]] ⟨0, 3⟩ 1 (valueRec (-2)) = .ok m' :=
  let ⟨_, m', h, _⟩ := @C141_write _ anyMath _ _ 1 (.inl (@Rebuilds.apo _ anyMath 1 2)) [[valueRec 1, valueRec 2, valueRec 3]]
    ⟨closing [1, 2, 3], ⟨0, 3⟩⟩ (closing [1, 2, 3]) rfl (by decide +kernel) (by decide +kernel) 1 (by decide +kernel) (valueRec (-2))
    (fun n => n) (valueRec 0) .make
  ⟨m', h⟩

/-- One record in an array of two: a record the caller appends is replaced by the object's at the next `Calculation`. -/
example : ∃ m₂ e', (ObjR.Calculation (I := (Awesome (F := XF ℚ)).toIndicator) (fun n => 2 * n) (valueRec 0) .append
      [[valueRec 0, valueRec 9]] ⟨closing [1], ⟨0, 1⟩⟩) = .ok (m₂, e') ∧
    RMem.shown [[valueRec 0, valueRec 9]] ⟨0, 2⟩ = [valueRec 0] ++ [valueRec 9] ∧
    m₂.shown ⟨0, 2⟩ = [valueRec 0] ++ [valueRec 0] :=
  @C141_overwritten _ anyMath _ _ 1 (@Extends.awesome _ anyMath) (fun n => 2 * n) (valueRec 0) [[valueRec 0, valueRec 0]] [[valueRec 0, valueRec 9]]
    ⟨closing [1], ⟨0, 1⟩⟩ (closing [1]) rfl (by decide +kernel) (valueRec 0) [] (by decide +kernel) (valueRec 9) ⟨0, 2⟩ (by decide +kernel)

/-- A full array: after `Calculation` the kept slice and the object are apart. -/
example : ∃ m' e', (ObjR.Calculation (I := (Awesome (F := XF ℚ)).toIndicator) (fun n => 2 * n) (valueRec 0) .append
      [[valueRec 0]] ⟨closing [1], ⟨0, 1⟩⟩) = .ok (m', e') ∧ m'.shown e'.data = [valueRec 0, valueRec 0] ∧
    ∃ m'', m'.write ⟨0, 1⟩ 0 (valueRec 7) = .ok m'' ∧ m''.shown e'.data = [valueRec 0, valueRec 0] := by
  obtain ⟨m', e', h1, h2, h3, h4⟩ := @C141_recalculated _ anyMath _ _ 1 (@Extends.awesome _ anyMath) (fun n => 2 * n) (valueRec 0) [[valueRec 0]]
    ⟨closing [1], ⟨0, 1⟩⟩ (closing [1]) rfl (by decide +kernel) [valueRec 0] (by decide +kernel)
  obtain ⟨m'', h5, h6, h7⟩ := h4 0 (valueRec 7) (by decide +kernel)
  exact ⟨m', e', h1, h2, m'', h5, h7.trans (by decide +kernel)⟩

/-- An object that builds a new slice. -/
example : ∃ m' e', (ObjR.Calculation (I := (APO (F := XF ℚ) 1 2).toIndicator) (fun n => 2 * n) (valueRec 0) .make
      [[valueRec 5]] ⟨closing [1], ⟨0, 1⟩⟩) = .ok (m', e') ∧ m'.shown e'.data = [valueRec 0] ∧ m'.shown ⟨0, 1⟩ = [valueRec 5] :=
  let ⟨m', e', h1, h2, h3, _⟩ := @C141_rebuilt _ anyMath _ _ 1 (@Rebuilds.apo _ anyMath 1 2) (fun n => 2 * n) (valueRec 0) [[valueRec 5]]
    ⟨closing [1], ⟨0, 1⟩⟩ (closing [1]) rfl (by decide +kernel) [valueRec 0] (by decide +kernel)
  ⟨m', e', h1, h2, h3⟩

/-- Two callers of one object: the first finds the second one's record. -/
example : RMem.shown [[valueRec 0, valueRec 2]] ⟨0, 2⟩ = [valueRec 0] ++ [valueRec 2] :=
  (C141_two_appends (I := APO (F := XF ℚ) 1 2) (grow := fun n => n) (zero := valueRec 0) (m := [[valueRec 0, valueRec 0]]) (m₁ := [[valueRec 0, valueRec 1]])
    (e := ⟨closing [1], ⟨0, 1⟩⟩) (s₁ := ⟨0, 2⟩) (s₂ := ⟨0, 2⟩) (a := valueRec 1) (b := valueRec 2)
    (by decide +kernel) (by decide +kernel) (by decide +kernel)).2.1

end Verif.Props
