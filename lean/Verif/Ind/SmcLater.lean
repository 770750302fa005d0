import Verif.Ind.Smc

/-!
# Smart Money Concepts when one more candle has come

First the passes over the old candles, run over the longer series: they do what they did, on one record more. Then the pass
over the new candle: what it does to the records.
-/

set_option linter.unusedSectionVars false

namespace Verif.Ind.Smc
open Verif Verif.Klines Verif.Ta Verif.Ind Verif.Container GoFloat

/-- If the first returns, the second returns the image of its result. -/
def Follows {α β : Type} (f : α → β) (a : Go α) (b : Go β) : Prop := ∀ x, a = .ok x → b = .ok (f x)

theorem Follows.bind {α β γ δ : Type} {f : α → β} {h : γ → δ} {a : Go α} {b : Go β} {k : α → Go γ} {k' : β → Go δ}
    (h1 : Follows f a b) (h2 : ∀ x, Follows h (k x) (k' (f x))) : Follows h (a >>= k) (b >>= k') := by
  intro y hy
  cases a with
  | error p => cases hy
  | ok x =>
    rw [h1 x rfl]
    exact h2 x y hy

theorem Follows.same {α : Type} (a : Go α) : Follows id a a := fun _ h => h

theorem Follows.pure {α β : Type} {f : α → β} {x : α} {y : β} (h : y = f x) : Follows f (pure x : Go α) (pure y : Go β) := by
  intro z hz
  cases hz
  exact congrArg Except.ok h

theorem Follows.ite {α β : Type} {f : α → β} {c : Prop} [Decidable c] {a b : Go α} {a' b' : Go β} (h1 : Follows f a a')
    (h2 : Follows f b b') : Follows f (if c then a else b) (if c then a' else b') := by
  split
  · exact h1
  · exact h2

theorem idx_prefix {α : Type} {l l' : List α} (h : l <+: l') (i : Int) : Follows id (idx l i) (idx l' i) := by
  intro x hx
  obtain ⟨t, rfl⟩ := h
  unfold idx at hx ⊢
  split at hx
  · next h0 =>
    rw [if_pos h0]
    cases hl : l[i.toNat]? with
    | none => rw [hl] at hx; cases hx
    | some y =>
      rw [hl] at hx
      cases hx
      have hlt : i.toNat < l.length := (List.getElem?_eq_some_iff.mp hl).1
      rw [List.getElem?_append_left hlt, hl]
      rfl
  · cases hx

theorem slice_prefix {α : Type} {l l' : List α} (h : l <+: l') (i j : Int) : Follows id (slice l i j) (slice l' i j) := by
  intro x hx
  obtain ⟨t, rfl⟩ := h
  unfold slice at hx ⊢
  split at hx
  · next h0 =>
    cases hx
    rw [if_pos (by rw [List.length_append]; push_cast; omega)]
    rw [List.take_append_of_le_length (by omega)]
    rfl
  · cases hx

theorem setAt_more {α : Type} (z : α) (d : List α) (k : Int) (v : α) : Follows (· ++ [z]) (setAt d k v) (setAt (d ++ [z]) k v) := by
  intro x hx
  unfold setAt at hx ⊢
  split at hx
  · next h0 =>
    cases hx
    rw [if_pos (by rw [List.length_append]; push_cast; omega), List.set_append_left _ _ (by omega)]
  · cases hx

variable {F : Type} [GoFloat F] (z : Rec F)

/-- The object with one record more. -/
def moreE (e : Obj F) : Obj F := { e with data := e.data ++ [z] }

def more (s : Obj F × Loc F) : Obj F × Loc F := (moreE z s.1, s.2)

theorem draw_more (d : List (Rec F)) (lo hi : Int) (put : Rec F → Rec F) :
    Follows (· ++ [z]) (draw d lo hi put) (draw (d ++ [z]) lo hi put) := by
  intro x hx
  unfold draw at hx ⊢
  refine goFor_sim (f := fun d : List (Rec F) => d ++ [z]) (fun i s s' h => ?_) hx
  exact Follows.bind (k' := fun r => setAt (s ++ [z]) i (put r)) (idx_prefix ⟨[z], rfl⟩ i) (fun r => setAt_more z s i (put r)) s' h

theorem prev_more (e : Obj F) (t : Int) : (moreE z e).prev t = e.prev t := rfl

theorem setPrev_more (e : Obj F) (t ix : Int) : (moreE z e).setPrev t ix = moreE z (e.setPrev t ix) := by
  unfold Obj.setPrev
  split
  · rfl
  · split <;> rfl

def moreS (s : F × F × Int × Obj F) : F × F × Int × Obj F := (s.1, s.2.1, s.2.2.1, moreE z s.2.2.2)

theorem obTopStep_more (h l a : List F) (t i : Int) (s : F × F × Int × Obj F) :
    Follows (moreS z) (obTopStep h l a t i s) (obTopStep h l a t i (moreS z s)) := by
  unfold obTopStep
  refine Follows.bind (Follows.same _) fun hh => ?_
  refine Follows.bind (Follows.same _) fun ll => ?_
  refine Follows.bind (Follows.same _) fun aa => ?_
  refine Follows.ite (Follows.pure ?_) (Follows.pure rfl)
  show _ = moreS z _
  simp only [moreS, ← setPrev_more]
  rfl

theorem obBottomStep_more (h l a : List F) (t i : Int) (s : F × F × Int × Obj F) :
    Follows (moreS z) (obBottomStep h l a t i s) (obBottomStep h l a t i (moreS z s)) := by
  unfold obBottomStep
  refine Follows.bind (Follows.same _) fun hh => ?_
  refine Follows.bind (Follows.same _) fun ll => ?_
  refine Follows.bind (Follows.same _) fun aa => ?_
  refine Follows.ite (Follows.pure ?_) (Follows.pure rfl)
  show _ = moreS z _
  simp only [moreS, ← setPrev_more]
  rfl

/-- Every column of the first is the beginning of that of the second. -/
structure Begins (o o' : OHLC F) : Prop where
  op : o.open_ <+: o'.open_
  hi : o.high <+: o'.high
  lo : o.low <+: o'.low
  cl : o.close <+: o'.close
  ti : o.timeUnix <+: o'.timeUnix

variable {o o' : OHLC F} (ho : Begins o o')
include ho

theorem obCoord_more (e : Obj F) (useMax : Bool) (index loc : Int) (h l a : List F) (list : List (Block F)) (t : Int) :
    Follows (fun r => (moreE z r.1, r.2)) (obCoord o e useMax index loc h l a list t)
      (obCoord o' (moreE z e) useMax index loc h l a list t) := by
  unfold obCoord
  refine Follows.bind (f := moreS z) ?_ ?_
  · intro x hx
    refine goFor_sim (f := moreS z) (fun i s s' h => ?_) hx
    revert h
    cases useMax with
    | true => exact obTopStep_more z _ _ _ _ _ s s'
    | false => exact obBottomStep_more z _ _ _ _ _ s s'
  · intro s
    refine Follows.bind (idx_prefix ho.ti _) fun tt => ?_
    refine Follows.bind (idx_prefix ho.op _) fun oo => ?_
    refine Follows.bind (idx_prefix ho.cl _) fun cc => ?_
    refine Follows.bind (Follows.same _) fun hh => ?_
    refine Follows.bind (Follows.same _) fun ll => ?_
    exact Follows.pure rfl

theorem highShort_more (c h l a : List F) (i : Int) (s : Obj F × Loc F) :
    Follows (more z) (highShort o c h l a i s) (highShort o' c h l a i (more z s)) := by
  obtain ⟨e, v⟩ := s
  unfold highShort
  dsimp only [more]
  refine Follows.bind (Follows.same _) fun b => ?_
  refine Follows.ite ?_ (Follows.pure rfl)
  refine Follows.bind (f := (· ++ [z])) (Follows.ite (draw_more z _ _ _ _) (draw_more z _ _ _ _)) fun d => ?_
  exact Follows.bind (obCoord_more z ho { e with data := d } _ _ _ _ _ _ _ _) fun r => Follows.pure rfl

theorem highLong_more (c h l a : List F) (i : Int) (s : Obj F × Loc F) :
    Follows (more z) (highLong o c h l a i s) (highLong o' c h l a i (more z s)) := by
  obtain ⟨e, v⟩ := s
  unfold highLong
  dsimp only [more]
  refine Follows.bind (Follows.same _) fun b => ?_
  refine Follows.ite ?_ (Follows.pure rfl)
  refine Follows.bind (f := (· ++ [z])) (Follows.ite (draw_more z _ _ _ _) (draw_more z _ _ _ _)) fun d => ?_
  exact Follows.bind (obCoord_more z ho { e with data := d } _ _ _ _ _ _ _ _) fun r => Follows.pure rfl

theorem lowShort_more (c h l a : List F) (i : Int) (s : Obj F × Loc F) :
    Follows (more z) (lowShort o c h l a i s) (lowShort o' c h l a i (more z s)) := by
  obtain ⟨e, v⟩ := s
  unfold lowShort
  dsimp only [more]
  refine Follows.bind (Follows.same _) fun b => ?_
  refine Follows.ite ?_ (Follows.pure rfl)
  refine Follows.bind (f := (· ++ [z])) (Follows.ite (draw_more z _ _ _ _) (draw_more z _ _ _ _)) fun d => ?_
  exact Follows.bind (obCoord_more z ho { e with data := d } _ _ _ _ _ _ _ _) fun r => Follows.pure rfl

theorem lowLong_more (c h l a : List F) (i : Int) (s : Obj F × Loc F) :
    Follows (more z) (lowLong o c h l a i s) (lowLong o' c h l a i (more z s)) := by
  obtain ⟨e, v⟩ := s
  unfold lowLong
  dsimp only [more]
  refine Follows.bind (Follows.same _) fun b => ?_
  refine Follows.ite ?_ (Follows.pure rfl)
  refine Follows.bind (f := (· ++ [z])) (Follows.ite (draw_more z _ _ _ _) (draw_more z _ _ _ _)) fun d => ?_
  exact Follows.bind (obCoord_more z ho { e with data := d } _ _ _ _ _ _ _ _) fun r => Follows.pure rfl

omit ho in
theorem equals_more (g : Cfg) (h l : List F) (a : F) (i : Int) (s : Obj F × Loc F) :
    Follows (more z) (equals g h l a i s) (equals g h l a i (more z s)) := by
  obtain ⟨e, v⟩ := s
  unfold equals
  dsimp only [more]
  refine Follows.bind (Follows.same _) fun u => ?_
  refine Follows.bind (Follows.same _) fun top => ?_
  refine Follows.bind (Follows.same _) fun w => ?_
  refine Follows.bind (Follows.same _) fun btm => ?_
  refine Follows.bind (f := more z) ?_ ?_
  · refine Follows.ite ?_ (Follows.pure rfl)
    exact Follows.bind (f := (· ++ [z])) (Follows.ite (draw_more z _ _ _ _) (Follows.pure rfl)) fun d => Follows.pure rfl
  · rintro ⟨e, v⟩
    refine Follows.ite ?_ (Follows.pure rfl)
    exact Follows.bind (f := (· ++ [z])) (Follows.ite (draw_more z _ _ _ _) (Follows.pure rfl)) fun d => Follows.pure rfl

omit ho in
theorem levels_more {t t' : List Int} (ht : t <+: t') (s : Obj F × Loc F) : Follows (more z) (levels t s) (levels t' (more z s)) := by
  obtain ⟨e, v⟩ := s
  unfold levels
  dsimp only [more]
  refine Follows.bind (idx_prefix ht _) fun tu => ?_
  refine Follows.bind (idx_prefix ht _) fun td => ?_
  refine Follows.pure ?_
  dsimp only [more, id]
  congr 1
  split <;> split <;> rfl

theorem step_more (g : Cfg) {a a' : List F} (ha : a <+: a') (i : Int) (s : Obj F × Loc F) :
    Follows (more z) (step g o a i s) (step g o' a' i (more z s)) := by
  obtain ⟨e, v⟩ := s
  unfold step
  dsimp only [more]
  refine Follows.bind (idx_prefix ho.cl _) fun close => ?_
  refine Follows.bind (idx_prefix ho.hi _) fun high => ?_
  refine Follows.bind (idx_prefix ho.lo _) fun low => ?_
  refine Follows.bind (idx_prefix ho.ti _) fun time => ?_
  refine Follows.ite (Follows.pure rfl) ?_
  refine Follows.bind (slice_prefix ho.hi _ _) fun h => ?_
  refine Follows.bind (slice_prefix ho.lo _ _) fun l => ?_
  refine Follows.bind (Follows.same _) ?_
  rintro ⟨top, btm, os1⟩
  refine Follows.bind (Follows.same _) ?_
  rintro ⟨itop, ibtm, os2⟩
  refine Follows.bind (slice_prefix ho.cl _ _) fun c => ?_
  refine Follows.bind (slice_prefix ha _ _) fun at_ => ?_
  refine Follows.bind (highShort_more z ho _ _ _ _ _ (_, _)) fun s => ?_
  refine Follows.bind (highLong_more z ho _ _ _ _ _ s) fun s => ?_
  refine Follows.bind (lowShort_more z ho _ _ _ _ _ s) fun s => ?_
  refine Follows.bind (lowLong_more z ho _ _ _ _ _ s) ?_
  rintro ⟨e, v⟩
  refine Follows.bind (Follows.same _) fun bull => ?_
  refine Follows.bind (Follows.same _) fun bear => ?_
  refine Follows.bind (idx_prefix ha _) fun a1 => ?_
  refine Follows.bind (f := more z) (Follows.ite (equals_more z g _ _ _ _ (_, _)) (Follows.pure rfl)) fun s => ?_
  refine Follows.bind (levels_more z ho.ti s) ?_
  rintro ⟨e, v⟩
  refine Follows.bind (idx_prefix ⟨[z], rfl⟩ _) fun r => ?_
  exact Follows.bind (setAt_more z _ _ _) fun d => Follows.pure rfl

omit ho

/-! ## The pass over the newest candle -/

/-- The lines a record can belong to. -/
inductive LineKind
  | highBosShort | highChochShort | highBosLong | highChochLong | lowBosShort | lowChochShort | lowBosLong | lowChochLong | eqh | eql
  deriving DecidableEq

/-- The value of a record for a kind of line. -/
def LineKind.of : LineKind → Rec F → F
  | .highBosShort, r => r.highBosShort
  | .highChochShort, r => r.highChochShort
  | .highBosLong, r => r.highBosLong
  | .highChochLong, r => r.highChochLong
  | .lowBosShort, r => r.lowBosShort
  | .lowChochShort, r => r.lowChochShort
  | .lowBosLong, r => r.lowBosLong
  | .lowChochLong, r => r.lowChochLong
  | .eqh, r => r.eqh
  | .eql, r => r.eql

theorem setAt_spec {α : Type} {d d' : List α} {k : Int} {v : α} (h : setAt d k v = .ok d') :
    0 ≤ k ∧ k < d.length ∧ d'.length = d.length ∧ ∀ j : Nat, d'[j]? = if (j : Int) = k then some v else d[j]? := by
  unfold setAt at h
  split at h
  · next h0 =>
    cases h
    refine ⟨h0.1, h0.2, List.length_set, fun j => ?_⟩
    rw [List.getElem?_set]
    by_cases hj : (j : Int) = k
    · rw [if_pos (by omega), if_pos hj, if_pos (by omega)]
    · rw [if_neg (by omega), if_neg hj]
  · cases h

theorem draw_ok {d d' : List (Rec F)} {lo hi : Int} {put : Rec F → Rec F} (h : draw d lo hi put = .ok d') :
    d'.length = d.length ∧ ∀ j : Nat, d'[j]? = if lo ≤ (j : Int) ∧ (j : Int) ≤ hi then d[j]?.map put else d[j]? := by
  unfold draw goFor at h
  obtain ⟨m, hm⟩ : ∃ m, m = (hi + 1 - lo).toNat := ⟨_, rfl⟩
  rw [← hm] at h
  induction m generalizing lo d with
  | zero =>
    cases h
    exact ⟨rfl, fun j => by rw [if_neg (by omega)]⟩
  | succ m ih =>
    rw [goForFrom_succ] at h
    cases hr : idx d lo with
    | error p => rw [hr] at h; cases h
    | ok r =>
      rw [hr, ok_bind] at h
      cases hs : setAt d lo (put r) with
      | error p => rw [hs] at h; cases h
      | ok d1 =>
        rw [hs, ok_bind] at h
        obtain ⟨h1, h2⟩ := ih (lo := lo + 1) (d := d1) h (by omega)
        obtain ⟨k0, k1, k2, k3⟩ := setAt_spec hs
        refine ⟨h1.trans k2, fun j => ?_⟩
        rw [h2, k3]
        have hr' : d[lo.toNat]? = some r := by
          unfold idx at hr
          rw [if_pos k0] at hr
          cases hq : d[lo.toNat]? with
          | none => rw [hq] at hr; cases hr
          | some y => rw [hq] at hr; cases hr; rfl
        by_cases hj : (j : Int) = lo
        · have : lo.toNat = j := by omega
          rw [this] at hr'
          rw [if_neg (by omega), if_pos hj, if_pos (by omega), hr']
          rfl
        · rw [if_neg hj]
          by_cases hc : lo + 1 ≤ (j : Int) ∧ (j : Int) ≤ hi
          · rw [if_pos hc, if_pos (by omega)]
          · rw [if_neg hc, if_neg (by omega)]

/-- In all records from some place up to `hi` the value of the kind has been replaced by one and the same value. -/
def Drawn (f : LineKind) (hi : Int) (d d' : List (Rec F)) : Prop :=
  ∃ (lo : Int) (c : F), ∀ j : Nat, d'[j]?.map f.of = if lo ≤ (j : Int) ∧ (j : Int) ≤ hi then d[j]?.map fun _ => c else d[j]?.map f.of

/-- The kinds in `S` may have got a line up to `hi`, the others are as they were. -/
def Changed (S : LineKind → Bool) (hi : LineKind → Int) (d d' : List (Rec F)) : Prop :=
  d'.length = d.length ∧ (∀ j : Nat, d'[j]?.map (·.time) = d[j]?.map (·.time)) ∧
    ∀ f, (S f = true → Drawn f (hi f) d d') ∧ (S f = false → ∀ j : Nat, d'[j]?.map f.of = d[j]?.map f.of)

theorem Drawn.refl (f : LineKind) (hi : Int) (d : List (Rec F)) : Drawn f hi d d :=
  ⟨hi + 1, fl 0, fun j => by rw [if_neg (by omega)]⟩

theorem Changed.refl (S : LineKind → Bool) (hi : LineKind → Int) (d : List (Rec F)) : Changed S hi d d :=
  ⟨rfl, fun _ => rfl, fun f => ⟨fun _ => Drawn.refl f _ d, fun _ _ => rfl⟩⟩

theorem Changed.mono {S T : LineKind → Bool} {hi : LineKind → Int} {d d' : List (Rec F)} (h : Changed S hi d d')
    (hst : ∀ f, S f = true → T f = true) : Changed T hi d d' := by
  refine ⟨h.1, h.2.1, fun f => ⟨fun ht => ?_, fun ht => (h.2.2 f).2 ?_⟩⟩
  · cases hs : S f with
    | true => exact (h.2.2 f).1 hs
    | false =>
      refine ⟨hi f + 1, fl 0, fun j => ?_⟩
      rw [if_neg (by omega)]
      exact (h.2.2 f).2 hs j
  · cases hs : S f with
    | true => rw [hst f hs] at ht; cases ht
    | false => rfl

theorem Changed.trans {S T : LineKind → Bool} {hi : LineKind → Int} {d d1 d2 : List (Rec F)} (h1 : Changed S hi d d1)
    (h2 : Changed T hi d1 d2) (hd : ∀ f, ¬ (S f = true ∧ T f = true)) : Changed (fun f => S f || T f) hi d d2 := by
  refine ⟨h2.1.trans h1.1, fun j => (h2.2.1 j).trans (h1.2.1 j), fun f => ⟨fun h => ?_, fun h j => ?_⟩⟩
  · rw [Bool.or_eq_true] at h
    rcases h with h | h
    · obtain ⟨lo, c, hh⟩ := (h1.2.2 f).1 h
      have ht : T f = false := by
        cases e : T f with
        | true => exact absurd ⟨h, e⟩ (hd f)
        | false => rfl
      exact ⟨lo, c, fun j => ((h2.2.2 f).2 ht j).trans (hh j)⟩
    · obtain ⟨lo, c, hh⟩ := (h2.2.2 f).1 h
      have hs : S f = false := by
        cases e : S f with
        | true => exact absurd ⟨e, h⟩ (hd f)
        | false => rfl
      refine ⟨lo, c, fun j => ?_⟩
      rw [hh j, (h1.2.2 f).2 hs j]
      split
      · have hl := h1.1
        by_cases hj : j < d.length
        · rw [List.getElem?_eq_getElem hj, List.getElem?_eq_getElem (by omega)]
          rfl
        · rw [List.getElem?_eq_none (by omega), List.getElem?_eq_none (by omega)]
      · rfl
  · rw [Bool.or_eq_false_iff] at h
    exact ((h2.2.2 f).2 h.2 j).trans ((h1.2.2 f).2 h.1 j)

/-- A drawn line is a change of its kind only. -/
theorem draw_changed {f : LineKind} {hi : LineKind → Int} {d d' : List (Rec F)} {lo h : Int} {put : Rec F → Rec F}
    (hd : draw d lo h put = .ok d') (c : F) (hh : hi f = h) (hp : ∀ r, f.of (put r) = c)
    (hq : ∀ k, k ≠ f → ∀ r, k.of (put r) = k.of r) (ht : ∀ r, (put r).time = r.time) : Changed (fun k => k = f) hi d d' := by
  obtain ⟨h1, h2⟩ := draw_ok hd
  refine ⟨h1, fun j => ?_, fun k => ⟨fun hk => ?_, fun hk j => ?_⟩⟩
  · rw [h2]
    split
    · cases d[j]? with
      | none => rfl
      | some r => exact congrArg some (ht r)
    · rfl
  · have hk : k = f := of_decide_eq_true hk
    subst hk
    refine ⟨lo, c, fun j => ?_⟩
    rw [h2, hh]
    split
    · cases d[j]? with
      | none => rfl
      | some r => exact congrArg some (hp r)
    · rfl
  · have hk : k ≠ f := of_decide_eq_false hk
    rw [h2]
    split
    · cases d[j]? with
      | none => rfl
      | some r => exact congrArg some (hq k hk r)
    · rfl

theorem of_bind {α β : Type} {a : Go α} {k : α → Go β} {y : β} (h : (a >>= k) = .ok y) : ∃ x, a = .ok x ∧ k x = .ok y := by
  cases a with
  | error p => cases h
  | ok x => exact ⟨x, rfl, h⟩

theorem setPrev_data (e : Obj F) (t ix : Int) : (e.setPrev t ix).data = e.data := by
  unfold Obj.setPrev
  split
  · rfl
  · split <;> rfl

theorem obTop_data {h l a : List F} {t i : Int} {s s' : F × F × Int × Obj F} (hs : obTopStep h l a t i s = .ok s') :
    s'.2.2.2.data = s.2.2.2.data := by
  unfold obTopStep at hs
  obtain ⟨_, -, hs⟩ := of_bind hs
  obtain ⟨_, -, hs⟩ := of_bind hs
  obtain ⟨_, -, hs⟩ := of_bind hs
  split at hs <;> cases hs
  · exact setPrev_data _ _ _
  · rfl

theorem obBottom_data {h l a : List F} {t i : Int} {s s' : F × F × Int × Obj F} (hs : obBottomStep h l a t i s = .ok s') :
    s'.2.2.2.data = s.2.2.2.data := by
  unfold obBottomStep at hs
  obtain ⟨_, -, hs⟩ := of_bind hs
  obtain ⟨_, -, hs⟩ := of_bind hs
  obtain ⟨_, -, hs⟩ := of_bind hs
  split at hs <;> cases hs
  · exact setPrev_data _ _ _
  · rfl

theorem obCoord_data {e e' : Obj F} {useMax : Bool} {index loc : Int} {h l a : List F} {list list' : List (Block F)} {t : Int}
    (hs : obCoord o e useMax index loc h l a list t = .ok (e', list')) : e'.data = e.data := by
  unfold obCoord at hs
  obtain ⟨s, h1, hs⟩ := of_bind hs
  obtain ⟨_, -, hs⟩ := of_bind hs
  obtain ⟨_, -, hs⟩ := of_bind hs
  obtain ⟨_, -, hs⟩ := of_bind hs
  obtain ⟨_, -, hs⟩ := of_bind hs
  obtain ⟨_, -, hs⟩ := of_bind hs
  cases hs
  refine goFor_ok_inv (fun s : F × F × Int × Obj F => s.2.2.2.data = e.data) (fun i s s' h0 hb => ?_) rfl h1
  split at hb
  · exact (obTop_data hb).trans h0
  · exact (obBottom_data hb).trans h0

theorem highShort_changed {c h l a : List F} {i : Int} {hi : LineKind → Int} {s s' : Obj F × Loc F}
    (hb : hi .highBosShort = i) (hk : hi .highChochShort = i) (hs : highShort o c h l a i s = .ok s') :
    Changed (fun f => f = .highBosShort || f = .highChochShort) hi s.1.data s'.1.data := by
  obtain ⟨e, v⟩ := s
  unfold highShort at hs
  obtain ⟨b, -, hs⟩ := of_bind hs
  split at hs
  · obtain ⟨d, hd, hs⟩ := of_bind hs
    obtain ⟨⟨e1, l1⟩, hc, hs⟩ := of_bind hs
    cases hs
    rw [obCoord_data hc]
    show Changed _ hi e.data d
    split at hd
    · exact (draw_changed (f := .highChochShort) hd v.itopY hk (fun _ => rfl) (by rintro (_ | _) hk r <;> first | rfl | exact absurd rfl hk) (fun _ => rfl)).mono
        fun f hf => by rw [Bool.or_eq_true]; exact .inr hf
    · exact (draw_changed (f := .highBosShort) hd v.itopY hb (fun _ => rfl) (by rintro (_ | _) hk r <;> first | rfl | exact absurd rfl hk) (fun _ => rfl)).mono
        fun f hf => by rw [Bool.or_eq_true]; exact .inl hf
  · cases hs
    exact Changed.refl _ _ _

theorem highLong_changed {c h l a : List F} {i : Int} {hi : LineKind → Int} {s s' : Obj F × Loc F}
    (hb : hi .highBosLong = i) (hk : hi .highChochLong = i) (hs : highLong o c h l a i s = .ok s') :
    Changed (fun f => f = .highBosLong || f = .highChochLong) hi s.1.data s'.1.data := by
  obtain ⟨e, v⟩ := s
  unfold highLong at hs
  obtain ⟨b, -, hs⟩ := of_bind hs
  split at hs
  · obtain ⟨d, hd, hs⟩ := of_bind hs
    obtain ⟨⟨e1, l1⟩, hc, hs⟩ := of_bind hs
    cases hs
    rw [obCoord_data hc]
    show Changed _ hi e.data d
    split at hd
    · exact (draw_changed (f := .highChochLong) hd v.topY hk (fun _ => rfl) (by rintro (_ | _) hk r <;> first | rfl | exact absurd rfl hk) (fun _ => rfl)).mono
        fun f hf => by rw [Bool.or_eq_true]; exact .inr hf
    · exact (draw_changed (f := .highBosLong) hd v.topY hb (fun _ => rfl) (by rintro (_ | _) hk r <;> first | rfl | exact absurd rfl hk) (fun _ => rfl)).mono
        fun f hf => by rw [Bool.or_eq_true]; exact .inl hf
  · cases hs
    exact Changed.refl _ _ _

theorem lowShort_changed {c h l a : List F} {i : Int} {hi : LineKind → Int} {s s' : Obj F × Loc F}
    (hb : hi .lowBosShort = i) (hk : hi .lowChochShort = i) (hs : lowShort o c h l a i s = .ok s') :
    Changed (fun f => f = .lowBosShort || f = .lowChochShort) hi s.1.data s'.1.data := by
  obtain ⟨e, v⟩ := s
  unfold lowShort at hs
  obtain ⟨b, -, hs⟩ := of_bind hs
  split at hs
  · obtain ⟨d, hd, hs⟩ := of_bind hs
    obtain ⟨⟨e1, l1⟩, hc, hs⟩ := of_bind hs
    cases hs
    rw [obCoord_data hc]
    show Changed _ hi e.data d
    split at hd
    · exact (draw_changed (f := .lowChochShort) hd v.ibtmY hk (fun _ => rfl) (by rintro (_ | _) hk r <;> first | rfl | exact absurd rfl hk) (fun _ => rfl)).mono
        fun f hf => by rw [Bool.or_eq_true]; exact .inr hf
    · exact (draw_changed (f := .lowBosShort) hd v.ibtmY hb (fun _ => rfl) (by rintro (_ | _) hk r <;> first | rfl | exact absurd rfl hk) (fun _ => rfl)).mono
        fun f hf => by rw [Bool.or_eq_true]; exact .inl hf
  · cases hs
    exact Changed.refl _ _ _

theorem lowLong_changed {c h l a : List F} {i : Int} {hi : LineKind → Int} {s s' : Obj F × Loc F}
    (hb : hi .lowBosLong = i) (hk : hi .lowChochLong = i) (hs : lowLong o c h l a i s = .ok s') :
    Changed (fun f => f = .lowBosLong || f = .lowChochLong) hi s.1.data s'.1.data := by
  obtain ⟨e, v⟩ := s
  unfold lowLong at hs
  obtain ⟨b, -, hs⟩ := of_bind hs
  split at hs
  · obtain ⟨d, hd, hs⟩ := of_bind hs
    obtain ⟨⟨e1, l1⟩, hc, hs⟩ := of_bind hs
    cases hs
    rw [obCoord_data hc]
    show Changed _ hi e.data d
    split at hd
    · exact (draw_changed (f := .lowChochLong) hd v.btmY hk (fun _ => rfl) (by rintro (_ | _) hk r <;> first | rfl | exact absurd rfl hk) (fun _ => rfl)).mono
        fun f hf => by rw [Bool.or_eq_true]; exact .inr hf
    · exact (draw_changed (f := .lowBosLong) hd v.btmY hb (fun _ => rfl) (by rintro (_ | _) hk r <;> first | rfl | exact absurd rfl hk) (fun _ => rfl)).mono
        fun f hf => by rw [Bool.or_eq_true]; exact .inl hf
  · cases hs
    exact Changed.refl _ _ _

theorem equals_changed {g : Cfg} {h l : List F} {a : F} {i : Int} {hi : LineKind → Int} {s s' : Obj F × Loc F}
    (h1 : hi .eqh = i - g.conf) (h2 : hi .eql = i - g.conf) (hs : equals g h l a i s = .ok s') :
    Changed (fun f => f = .eqh || f = .eql) hi s.1.data s'.1.data := by
  obtain ⟨e, v⟩ := s
  unfold equals at hs
  obtain ⟨_, -, hs⟩ := of_bind hs
  obtain ⟨_, -, hs⟩ := of_bind hs
  obtain ⟨_, -, hs⟩ := of_bind hs
  obtain ⟨_, -, hs⟩ := of_bind hs
  obtain ⟨⟨e1, v1⟩, hm, hs⟩ := of_bind hs
  have c1 : Changed (fun f => f = .eqh) hi e.data e1.data := by
    split at hm
    · obtain ⟨d, hd, hm⟩ := of_bind hm
      cases hm
      show Changed _ hi e.data d
      split at hd
      · exact draw_changed (f := .eqh) hd v.eqPrevTop h1 (fun _ => rfl) (by rintro (_ | _) hk r <;> first | rfl | exact absurd rfl hk) (fun _ => rfl)
      · cases hd
        exact Changed.refl _ _ _
    · cases hm
      exact Changed.refl _ _ _
  have c2 : Changed (fun f => f = .eql) hi e1.data s'.1.data := by
    dsimp only at hs
    split at hs
    · obtain ⟨d, hd, hs⟩ := of_bind hs
      cases hs
      show Changed _ hi e1.data d
      split at hd
      · exact draw_changed (f := .eql) hd v1.eqPrevBtm h2 (fun _ => rfl) (by rintro (_ | _) hk r <;> first | rfl | exact absurd rfl hk) (fun _ => rfl)
      · cases hd
        exact Changed.refl _ _ _
    · cases hs
      exact Changed.refl _ _ _
  exact c1.trans c2 (by rintro (_ | _) <;> decide)

theorem levels_data {t : List Int} {s s' : Obj F × Loc F} (hs : levels t s = .ok s') : s'.1.data = s.1.data := by
  obtain ⟨e, v⟩ := s
  unfold levels at hs
  obtain ⟨_, -, hs⟩ := of_bind hs
  obtain ⟨_, -, hs⟩ := of_bind hs
  cases hs
  dsimp only
  split <;> split <;> rfl

/-- How far the lines reach that are drawn in the pass over candle `i`. -/
def reach (g : Cfg) (i : Int) : LineKind → Int
  | .eqh => i - g.conf
  | .eql => i - g.conf
  | _ => i

/-- The pass over candle `i` draws lines up to `i` (`i - conf` for equal highs and lows), and sets the time of record `i`. -/
theorem step_changed {g : Cfg} {a : List F} {i : Int} {s s' : Obj F × Loc F} (hs : step g o a i s = .ok s') :
    ∃ d, Changed (fun _ => true) (reach g i) s.1.data d ∧
      (s'.1.data = d ∨ ∃ t r, idx d i = .ok r ∧ setAt d i { r with time := t } = .ok s'.1.data) := by
  obtain ⟨e, v⟩ := s
  unfold step at hs
  obtain ⟨close, -, hs⟩ := of_bind hs
  obtain ⟨high, -, hs⟩ := of_bind hs
  obtain ⟨low, -, hs⟩ := of_bind hs
  obtain ⟨time, -, hs⟩ := of_bind hs
  dsimp only at hs
  split at hs
  · cases hs
    exact ⟨_, Changed.refl _ _ _, .inl rfl⟩
  · obtain ⟨h, -, hs⟩ := of_bind hs
    obtain ⟨l, -, hs⟩ := of_bind hs
    obtain ⟨⟨top, btm, os1⟩, -, hs⟩ := of_bind hs
    obtain ⟨⟨itop, ibtm, os2⟩, -, hs⟩ := of_bind hs
    obtain ⟨c, -, hs⟩ := of_bind hs
    obtain ⟨at_, -, hs⟩ := of_bind hs
    obtain ⟨s1, h1, hs⟩ := of_bind hs
    obtain ⟨s2, h2, hs⟩ := of_bind hs
    obtain ⟨s3, h3, hs⟩ := of_bind hs
    obtain ⟨⟨e4, v4⟩, h4, hs⟩ := of_bind hs
    obtain ⟨bull, -, hs⟩ := of_bind hs
    obtain ⟨bear, -, hs⟩ := of_bind hs
    obtain ⟨a1, -, hs⟩ := of_bind hs
    obtain ⟨s5, h5, hs⟩ := of_bind hs
    obtain ⟨⟨e6, v6⟩, h6, hs⟩ := of_bind hs
    obtain ⟨r, hr, hs⟩ := of_bind hs
    obtain ⟨d, hd, hs⟩ := of_bind hs
    cases hs
    have c1 := highShort_changed (hi := reach g i) rfl rfl h1
    have c2 := highLong_changed (hi := reach g i) rfl rfl h2
    have c3 := lowShort_changed (hi := reach g i) rfl rfl h3
    have c4 := lowLong_changed (hi := reach g i) rfl rfl h4
    have c5 : Changed (fun f => f = .eqh || f = .eql) (reach g i) e4.data s5.1.data := by
      split at h5
      · exact equals_changed rfl rfl h5
      · cases h5
        exact Changed.refl _ _ _
    have c6 := levels_data h6
    have := (((c1.trans c2 (by rintro (_ | _) <;> decide)).trans c3 (by rintro (_ | _) <;> decide)).trans c4
      (by rintro (_ | _) <;> decide)).trans c5 (by rintro (_ | _) <;> decide)
    rw [← c6] at this
    exact ⟨e6.data, this.mono fun _ _ => rfl, .inr ⟨time, r, hr, hd⟩⟩

end Verif.Ind.Smc
