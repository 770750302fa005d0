import Verif.Ind.Smc
import Verif.Ind.Scale

/-!
# Smart Money Concepts in another unit: step by step
-/

set_option linter.unusedSectionVars false

namespace Verif.Ind.Smc
open Verif Verif.Klines Verif.Ta Verif.Ind Verif.Container GoFloat

/-! ## Two runs side by side -/

/-- Both panic in the same way, or both return and the results are related. -/
def GoRel {α β : Type} (R : α → β → Prop) : Go α → Go β → Prop
  | .ok a, .ok b => R a b
  | .error p, .error q => p = q
  | _, _ => False

theorem GoRel.bind {α β γ δ : Type} {R : α → β → Prop} {S : γ → δ → Prop} {a : Go α} {b : Go β} {f : α → Go γ} {g : β → Go δ}
    (h : GoRel R a b) (hf : ∀ x y, R x y → GoRel S (f x) (g y)) : GoRel S (a >>= f) (b >>= g) := by
  cases a with
  | error p => cases b with
    | error q => exact h
    | ok b => exact h.elim
  | ok a => cases b with
    | error q => exact h.elim
    | ok b => exact hf a b h

theorem GoRel.mono {α β : Type} {R S : α → β → Prop} {a : Go α} {b : Go β} (h : GoRel R a b) (hRS : ∀ x y, R x y → S x y) :
    GoRel S a b := by
  cases a <;> cases b <;> first | exact h | exact hRS _ _ h

theorem GoRel.goForFrom {α β : Type} {R : α → β → Prop} {body : Int → α → Go α} {body' : Int → β → Go β}
    (hb : ∀ i s t, R s t → GoRel R (body i s) (body' i t)) (n : Nat) : ∀ (lo : Int) {s : α} {t : β}, R s t →
      GoRel R (goForFrom lo n s body) (goForFrom lo n t body') := by
  induction n with
  | zero => intro lo s t h; exact h
  | succ n ih =>
    intro lo s t h
    have := hb lo s t h
    rw [goForFrom_succ, goForFrom_succ]
    cases e : body lo s <;> cases e' : body' lo t <;> rw [e, e'] at this
    · exact this
    · exact this.elim
    · exact this.elim
    · exact ih _ this

theorem GoRel.goFor {α β : Type} {R : α → β → Prop} {body : Int → α → Go α} {body' : Int → β → Go β} {lo hi : Int} {s : α} {t : β}
    (h : R s t) (hb : ∀ i s t, R s t → GoRel R (body i s) (body' i t)) : GoRel R (goFor lo hi s body) (goFor lo hi t body') :=
  GoRel.goForFrom hb _ _ h

/-- The second is the first converted. -/
def Conv {α β : Type} (f : α → β) (a : α) (b : β) : Prop := b = f a

theorem GoRel.toMap {α β : Type} {f : α → β} {a : Go α} {b : Go β} (h : GoRel (Conv f) a b) : b = a.map f := by
  cases a <;> cases b
  · exact congrArg _ h.symm
  · exact h.elim
  · exact h.elim
  · exact congrArg _ h

section lists
variable {α β : Type} (f : α → β)

theorem idx_conv (l : List α) (i : Int) : GoRel (Conv f) (idx l i) (idx (l.map f) i) := by
  unfold idx
  split
  · rw [List.getElem?_map]
    cases l[i.toNat]? <;> exact rfl
  · exact rfl

theorem slice_conv (l : List α) (i j : Int) : GoRel (Conv (List.map f)) (slice l i j) (slice (l.map f) i j) := by
  unfold slice
  rw [List.length_map]
  split
  · show _ = _
    rw [List.map_drop, List.map_take]
  · exact rfl

theorem setAt_conv (l : List α) (i : Int) (v : α) : GoRel (Conv (List.map f)) (setAt l i v) (setAt (l.map f) i (f v)) := by
  unfold setAt
  rw [List.length_map]
  split
  · show _ = _
    rw [List.map_set]
  · exact rfl

theorem GoRel.same {α : Type} (a : Go α) : GoRel (Conv id) a a := by cases a <;> exact rfl

end lists

variable {F : Type} [GoFloat F] (σ : Scaling F)

/-! ## Converted state -/

def recIn (r : Rec F) : Rec F :=
  ⟨r.time, σ.s r.highBosShort, σ.s r.highChochShort, σ.s r.highBosLong, σ.s r.highChochLong, σ.s r.lowBosShort, σ.s r.lowChochShort,
    σ.s r.lowBosLong, σ.s r.lowChochLong, σ.s r.eqh, σ.s r.eql⟩

def levelIn (l : Level F) : Level F := ⟨l.time, σ.s l.value⟩

def blockIn (b : Block F) : Block F :=
  { isTop := b.isTop, time := b.time, close := σ.s b.close, high := σ.s b.high, low := σ.s b.low, open_ := σ.s b.open_ }

def objIn (e : Obj F) : Obj F :=
  { data := e.data.map (recIn σ), bull := e.bull.map (blockIn σ), bear := e.bear.map (blockIn σ), os1 := e.os1, os2 := e.os2,
    idxBull := e.idxBull, idxBear := e.idxBear, strongHigh := levelIn σ e.strongHigh, weakHigh := levelIn σ e.weakHigh,
    strongLow := levelIn σ e.strongLow, weakLow := levelIn σ e.weakLow }

def locIn (v : Loc F) : Loc F :=
  { v with
    topY := σ.s v.topY, btmY := σ.s v.btmY, itopY := σ.s v.itopY, ibtmY := σ.s v.ibtmY, trailUp := σ.s v.trailUp,
    trailDn := σ.s v.trailDn, eqPrevTop := σ.s v.eqPrevTop, eqPrevBtm := σ.s v.eqPrevBtm }

/-- The columns in the other unit; the volumes and the marks of bull markets are whatever they are. -/
def ohlcIn (w : List F) (m : List Bool) (o : OHLC F) : OHLC F :=
  { o with
    open_ := o.open_.map σ.s, high := o.high.map σ.s, low := o.low.map σ.s, close := o.close.map σ.s, volume := w, bullMarket := m }

def stIn2 (s : Obj F × Loc F) : Obj F × Loc F := (objIn σ s.1, locIn σ s.2)

theorem rec_zero : recIn σ (Rec.zero : Rec F) = Rec.zero := by simp only [recIn, Rec.zero, σ.zero]
theorem level_zero : levelIn σ (Level.zero : Level F) = Level.zero := by simp only [levelIn, Level.zero, σ.zero]
theorem obj_new : objIn σ (Obj.new : Obj F) = Obj.new := by simp [objIn, Obj.new, level_zero]
theorem loc_new : locIn σ (Loc.new : Loc F) = Loc.new := by simp only [locIn, Loc.new, σ.zero]

/-! ## Functions of the package -/

theorem ite_conv_iff {α β : Type} {f : α → β} {c c' : Prop} [Decidable c] [Decidable c'] {a b : Go α} {a' b' : Go β} (hc : c' ↔ c)
    (h1 : GoRel (Conv f) a a') (h2 : GoRel (Conv f) b b') : GoRel (Conv f) (if c then a else b) (if c' then a' else b') := by
  by_cases h : c
  · rw [if_pos h, if_pos (hc.mpr h)]; exact h1
  · rw [if_neg h, if_neg (mt hc.mp h)]; exact h2

theorem ite_conv {α β : Type} {f : α → β} {c : Prop} [Decidable c] {a b : Go α} {a' b' : Go β} (h1 : c → GoRel (Conv f) a a')
    (h2 : ¬ c → GoRel (Conv f) b b') : GoRel (Conv f) (if c then a else b) (if c then a' else b') := by
  split
  · next h => exact h1 h
  · next h => exact h2 h

theorem Highest_conv (l : List F) (p : Int) : GoRel (Conv σ.s) (Highest l p) (Highest (l.map σ.s) p) := by
  unfold Highest
  rw [List.length_map]
  refine GoRel.bind (idx_conv σ.s l _) fun a b h => ?_
  refine GoRel.goFor h ?_
  rintro i s _ rfl
  refine GoRel.bind (idx_conv σ.s l _) ?_
  rintro v _ rfl
  simp only [GoFloat.gt, σ.lt]
  exact ite_conv (fun _ => rfl) (fun _ => rfl)

theorem Lowest_conv (l : List F) (p : Int) : GoRel (Conv σ.s) (Lowest l p) (Lowest (l.map σ.s) p) := by
  unfold Lowest
  rw [List.length_map]
  refine GoRel.bind (idx_conv σ.s l _) fun a b h => ?_
  refine GoRel.goFor h ?_
  rintro i s _ rfl
  refine GoRel.bind (idx_conv σ.s l _) ?_
  rintro v _ rfl
  simp only [σ.lt]
  exact ite_conv (fun _ => rfl) (fun _ => rfl)

theorem CrossOver_conv (l : List F) (a : F) : GoRel (Conv id) (CrossOver l a) (CrossOver (l.map σ.s) (σ.s a)) := by
  unfold CrossOver
  rw [List.length_map]
  refine GoRel.bind (idx_conv σ.s l _) ?_
  rintro v _ rfl
  simp only [GoFloat.gt, σ.lt]
  refine ite_conv (fun _ => ?_) (fun _ => rfl)
  refine GoRel.bind (idx_conv σ.s l _) ?_
  rintro v _ rfl
  simp only [σ.lt]
  exact rfl

theorem CrossUnder_conv (l : List F) (a : F) : GoRel (Conv id) (CrossUnder l a) (CrossUnder (l.map σ.s) (σ.s a)) := by
  unfold CrossUnder
  rw [List.length_map]
  refine GoRel.bind (idx_conv σ.s l _) ?_
  rintro v _ rfl
  simp only [σ.lt]
  refine ite_conv (fun _ => ?_) (fun _ => rfl)
  refine GoRel.bind (idx_conv σ.s l _) ?_
  rintro v _ rfl
  simp only [GoFloat.gt, σ.lt]
  exact rfl

theorem mkZero_conv (n : Int) : GoRel (Conv (List.map σ.s)) (mk n (fl 0 : F)) (mk n (fl 0)) := by
  unfold mk
  split
  · show _ = _
    rw [List.map_replicate, σ.zero]
  · exact rfl

theorem PivotHigh_conv (l : List F) (p q : Int) : GoRel (Conv (List.map σ.s)) (PivotHigh l p q) (PivotHigh (l.map σ.s) p q) := by
  unfold PivotHigh
  rw [List.length_map]
  refine GoRel.bind (mkZero_conv σ _) fun a b h => ?_
  refine GoRel.goFor h ?_
  rintro i s _ rfl
  refine GoRel.bind (slice_conv σ.s l _ _) ?_
  rintro w _ rfl
  have e : (Bst.nil : Bst F).inserts compareFloat64 (w.map σ.s) = ((Bst.nil : Bst F).inserts compareFloat64 w).map σ.s :=
    bst_inserts_map (compare_scale (σ := σ)) w Bst.nil
  rw [e]
  dsimp only
  rw [bst_max_map]
  cases ((Bst.nil : Bst F).inserts compareFloat64 w).max with
  | none => exact rfl
  | some m =>
    refine GoRel.bind (idx_conv σ.s l _) ?_
    rintro v _ rfl
    simp only [σ.eq]
    exact ite_conv (fun _ => setAt_conv σ.s s i m) (fun _ => rfl)

theorem PivotLow_conv (l : List F) (p q : Int) : GoRel (Conv (List.map σ.s)) (PivotLow l p q) (PivotLow (l.map σ.s) p q) := by
  unfold PivotLow
  rw [List.length_map]
  refine GoRel.bind (mkZero_conv σ _) fun a b h => ?_
  refine GoRel.goFor h ?_
  rintro i s _ rfl
  refine GoRel.bind (slice_conv σ.s l _ _) ?_
  rintro w _ rfl
  have e : (Bst.nil : Bst F).inserts compareFloat64 (w.map σ.s) = ((Bst.nil : Bst F).inserts compareFloat64 w).map σ.s :=
    bst_inserts_map (compare_scale (σ := σ)) w Bst.nil
  rw [e]
  dsimp only
  rw [bst_min_map]
  cases ((Bst.nil : Bst F).inserts compareFloat64 w).min with
  | none => exact rfl
  | some m =>
    refine GoRel.bind (idx_conv σ.s l _) ?_
    rintro v _ rfl
    simp only [σ.eq]
    exact ite_conv (fun _ => setAt_conv σ.s s i m) (fun _ => rfl)

/-! ## The parts of a pass -/

theorem swings_conv (h l : List F) (p os : Int) :
    GoRel (Conv fun r => (σ.s r.1, σ.s r.2.1, r.2.2)) (swings h l p os) (swings (h.map σ.s) (l.map σ.s) p os) := by
  unfold swings
  rw [List.length_map, List.length_map]
  refine GoRel.bind (Highest_conv σ h _) ?_
  rintro u _ rfl
  refine GoRel.bind (Lowest_conv σ l _) ?_
  rintro w _ rfl
  refine GoRel.bind (idx_conv σ.s h _) fun a a' ha => ?_
  refine GoRel.bind (R := Conv σ.s) (ite_conv (fun _ => idx_conv σ.s h _) (fun _ => ha)) ?_
  rintro a _ rfl
  refine GoRel.bind (idx_conv σ.s l _) fun b b' hb => ?_
  refine GoRel.bind (R := Conv σ.s) (ite_conv (fun _ => idx_conv σ.s l _) (fun _ => hb)) ?_
  rintro b _ rfl
  show _ = _
  simp only [GoFloat.gt, σ.lt, σ.ite_zero]

theorem prev_conv (e : Obj F) (t : Int) : (objIn σ e).prev t = e.prev t := rfl

theorem setPrev_conv (e : Obj F) (t ix : Int) : (objIn σ e).setPrev t ix = objIn σ (e.setPrev t ix) := by
  unfold Obj.setPrev
  split
  · rfl
  · split <;> rfl

theorem obTopStep_conv (h l a : List F) (t i : Int) {s s' : F × F × Int × Obj F}
    (hs : s'.2.1 = σ.s s.2.1 ∧ s'.2.2.1 = s.2.2.1 ∧ s'.2.2.2 = objIn σ s.2.2.2) :
    GoRel (fun s s' => s'.2.1 = σ.s s.2.1 ∧ s'.2.2.1 = s.2.2.1 ∧ s'.2.2.2 = objIn σ s.2.2.2)
      (obTopStep h l a t i s) (obTopStep (h.map σ.s) (l.map σ.s) (a.map σ.s) t i s') := by
  obtain ⟨h1, h2, h3⟩ := hs
  unfold obTopStep
  refine GoRel.bind (idx_conv σ.s h _) ?_
  rintro hh _ rfl
  refine GoRel.bind (idx_conv σ.s l _) ?_
  rintro ll _ rfl
  refine GoRel.bind (idx_conv σ.s a _) ?_
  rintro aa _ rfl
  simp only [σ.sub, σ.mul_left, σ.lt]
  split
  · show _ ∧ _ ∧ _
    simp only [h1, h3, σ.max, σ.eq, prev_conv, setPrev_conv, and_self]
  · exact ⟨h1, h2, h3⟩

/-- The price from which on `obCoord` no longer finds a minimum. -/
def Fits (σ : Scaling F) (l : List F) : Prop := ∀ v ∈ l, GoFloat.min v (lit 99999999) = v ∧ GoFloat.min (σ.s v) (lit 99999999) = σ.s v

theorem idx_mem {α : Type} {l : List α} {i : Int} {v : α} (h : idx l i = .ok v) : v ∈ l := by
  unfold idx at h
  split at h
  · cases e : l[i.toNat]? with
    | none => rw [e] at h; cases h
    | some w =>
      rw [e] at h
      cases h
      exact List.mem_of_getElem? e
  · cases h

theorem idx_conv_mem {α β : Type} (f : α → β) (l : List α) (i : Int) :
    GoRel (fun a b => b = f a ∧ a ∈ l) (idx l i) (idx (l.map f) i) := by
  have h := idx_conv f l i
  cases e : idx l i with
  | error p => rw [e] at h; cases e' : idx (l.map f) i <;> rw [e'] at h <;> exact h
  | ok a => rw [e] at h; cases e' : idx (l.map f) i <;> rw [e'] at h <;> first | exact h.elim | exact ⟨h, idx_mem e⟩

theorem obBottomStep_conv (h l a : List F) (t i : Int) (hl : Fits σ l) {s s' : F × F × Int × Obj F}
    (hs : (s'.1 = σ.s s.1 ∨ (s.1 = lit 99999999 ∧ s'.1 = lit 99999999)) ∧ s'.2.2.1 = s.2.2.1 ∧ s'.2.2.2 = objIn σ s.2.2.2) :
    GoRel (fun s s' => (s'.1 = σ.s s.1 ∨ (s.1 = lit 99999999 ∧ s'.1 = lit 99999999)) ∧ s'.2.2.1 = s.2.2.1 ∧
        s'.2.2.2 = objIn σ s.2.2.2)
      (obBottomStep h l a t i s) (obBottomStep (h.map σ.s) (l.map σ.s) (a.map σ.s) t i s') := by
  obtain ⟨h1, h2, h3⟩ := hs
  unfold obBottomStep
  refine GoRel.bind (idx_conv σ.s h _) ?_
  rintro hh _ rfl
  refine GoRel.bind (idx_conv_mem σ.s l _) ?_
  rintro ll _ ⟨rfl, hm⟩
  refine GoRel.bind (idx_conv σ.s a _) ?_
  rintro aa _ rfl
  have key : GoFloat.min (σ.s ll) s'.1 = σ.s (GoFloat.min ll s.1) := by
    rcases h1 with h1 | ⟨h1, h1'⟩
    · rw [h1, σ.min]
    · rw [h1, h1', (hl ll hm).1, (hl ll hm).2]
  simp only [σ.sub, σ.mul_left, σ.lt]
  split
  · refine ⟨.inl key, ?_⟩
    simp only [key, h3, σ.eq, prev_conv, setPrev_conv, and_self]
  · exact ⟨h1, h2, h3⟩

theorem Contains_conv (l : List (Block F)) (b : Block F) : Contains (l.map (blockIn σ)) (blockIn σ b) = Contains l b := by
  unfold Contains
  rw [List.any_map]
  rfl

theorem Add_conv (l : List (Block F)) (b : Block F) : Add (l.map (blockIn σ)) (blockIn σ b) = (Add l b).map (blockIn σ) := by
  unfold Add
  rw [Contains_conv]
  split <;> rfl

theorem Remove_conv (l : List (Block F)) (b : Block F) :
    GoRel (Conv (List.map (blockIn σ))) (Remove l b) (Remove (l.map (blockIn σ)) (blockIn σ b)) := by
  rw [Remove_eq, Remove_eq, Contains_conv]
  show _ = _
  split
  · rw [List.eraseP_map]; rfl
  · rfl

theorem obCoord_conv {w : List F} {m : List Bool} (o : OHLC F) (e : Obj F) (useMax : Bool) (index loc : Int) (h l a : List F) (list : List (Block F)) (t : Int)
    (hl : Fits σ l) : GoRel (Conv fun r => (objIn σ r.1, r.2.map (blockIn σ))) (obCoord o e useMax index loc h l a list t)
      (obCoord (ohlcIn σ w m o) (objIn σ e) useMax index loc (h.map σ.s) (l.map σ.s) (a.map σ.s) (list.map (blockIn σ)) t) := by
  unfold obCoord
  refine GoRel.bind (R := fun s s' => s'.2.2.1 = s.2.2.1 ∧ s'.2.2.2 = objIn σ s.2.2.2) ?_ ?_
  · cases useMax with
    | true =>
      refine (GoRel.goFor (R := fun s s' => s'.2.1 = σ.s s.2.1 ∧ s'.2.2.1 = s.2.2.1 ∧ s'.2.2.2 = objIn σ s.2.2.2)
        ⟨σ.zero.symm, rfl, rfl⟩ ?_).mono fun _ _ h => h.2
      intro i s t hs
      exact obTopStep_conv σ h l a _ _ hs
    | false =>
      refine (GoRel.goFor (R := fun s s' => (s'.1 = σ.s s.1 ∨ (s.1 = lit 99999999 ∧ s'.1 = lit 99999999)) ∧ s'.2.2.1 = s.2.2.1 ∧
        s'.2.2.2 = objIn σ s.2.2.2) ⟨.inr ⟨rfl, rfl⟩, rfl, rfl⟩ ?_).mono fun _ _ h => h.2
      intro i s t hs
      exact obBottomStep_conv σ h l a _ _ hl hs
  · rintro ⟨_, _, ix, e1⟩ ⟨_, _, ix', e1'⟩ ⟨h1, h2⟩
    dsimp only at h1 h2
    subst h1 h2
    refine GoRel.bind (GoRel.same (idx o.timeUnix ix')) ?_
    rintro _ tt rfl
    refine GoRel.bind (idx_conv σ.s o.open_ _) ?_
    rintro oo _ rfl
    refine GoRel.bind (idx_conv σ.s o.close _) ?_
    rintro cc _ rfl
    refine GoRel.bind (idx_conv σ.s h _) ?_
    rintro hh _ rfl
    refine GoRel.bind (idx_conv σ.s l _) ?_
    rintro ll _ rfl
    exact congrArg (Prod.mk (objIn σ e1)) (Add_conv σ list ⟨useMax, tt, cc, hh, ll, oo⟩)

theorem draw_conv (d : List (Rec F)) (lo hi : Int) {put put' : Rec F → Rec F} (hp : ∀ r, put' (recIn σ r) = recIn σ (put r)) :
    GoRel (Conv (List.map (recIn σ))) (draw d lo hi put) (draw (d.map (recIn σ)) lo hi put') := by
  unfold draw
  refine GoRel.goFor rfl ?_
  rintro i s _ rfl
  refine GoRel.bind (idx_conv (recIn σ) s _) ?_
  rintro r _ rfl
  rw [hp]
  exact setAt_conv (recIn σ) s i _

theorem trailInit_conv (h l : F) (v : Loc F) : trailInit (σ.s h) (σ.s l) (locIn σ v) = locIn σ (trailInit h l v) := by
  unfold trailInit
  have e1 : ((locIn σ v).trailUp ==. fl 0) = (v.trailUp ==. fl 0) := σ.eq_zero _
  have e3 : (if (v.trailUp ==. fl 0) = true then { locIn σ v with trailUp := σ.s h } else locIn σ v) =
      locIn σ (if (v.trailUp ==. fl 0) = true then { v with trailUp := h } else v) := by split <;> rfl
  rw [e1]
  dsimp only
  rw [e3]
  generalize (if (v.trailUp ==. fl 0) = true then { v with trailUp := h } else v) = w
  have e2 : ((locIn σ w).trailDn ==. fl 0) = (w.trailDn ==. fl 0) := σ.eq_zero _
  rw [e2]
  split <;> rfl

def keepTop (swing i : Int) (top : F) (v : Loc F) : Loc F := if !(top ==. fl 0) then
  { v with topCross := true, topY := top, topX := i - swing, trailUp := top, trailUpX := i - swing } else v
def keepItop (i : Int) (itop : F) (v : Loc F) : Loc F :=
  if !(itop ==. fl 0) then { v with itopCross := true, itopY := itop, itopX := i - 5 } else v
def keepUp (i : Int) (high : F) (v : Loc F) : Loc F :=
  let v := { v with trailUp := GoFloat.max high v.trailUp }
  if v.trailUp ==. high then { v with trailUpX := i } else v
def keepBtm (swing i : Int) (btm : F) (v : Loc F) : Loc F := if !(btm ==. fl 0) then
  { v with btmCross := true, btmY := btm, btmX := i - swing, trailDn := btm, trailDnX := i - swing } else v
def keepIbtm (i : Int) (ibtm : F) (v : Loc F) : Loc F :=
  if !(ibtm ==. fl 0) then { v with ibtmCross := true, ibtmY := ibtm, ibtmX := i - 5 } else v
def keepDn (i : Int) (low : F) (v : Loc F) : Loc F :=
  let v := { v with trailDn := GoFloat.min low v.trailDn }
  if v.trailDn ==. low then { v with trailDnX := i } else v

theorem takeSwings_eq (swing i : Int) (high low top btm itop ibtm : F) (v : Loc F) : takeSwings swing i high low top btm itop ibtm v =
    keepDn i low (keepIbtm i ibtm (keepBtm swing i btm (keepUp i high (keepItop i itop (keepTop swing i top v))))) := rfl

theorem keepTop_conv (swing i : Int) (a : F) (v : Loc F) : keepTop swing i (σ.s a) (locIn σ v) = locIn σ (keepTop swing i a v) := by
  unfold keepTop; rw [σ.eq_zero]; split <;> rfl
theorem keepItop_conv (i : Int) (a : F) (v : Loc F) : keepItop i (σ.s a) (locIn σ v) = locIn σ (keepItop i a v) := by
  unfold keepItop; rw [σ.eq_zero]; split <;> rfl
theorem keepBtm_conv (swing i : Int) (a : F) (v : Loc F) : keepBtm swing i (σ.s a) (locIn σ v) = locIn σ (keepBtm swing i a v) := by
  unfold keepBtm; rw [σ.eq_zero]; split <;> rfl
theorem keepIbtm_conv (i : Int) (a : F) (v : Loc F) : keepIbtm i (σ.s a) (locIn σ v) = locIn σ (keepIbtm i a v) := by
  unfold keepIbtm; rw [σ.eq_zero]; split <;> rfl
theorem keepUp_conv (i : Int) (a : F) (v : Loc F) : keepUp i (σ.s a) (locIn σ v) = locIn σ (keepUp i a v) := by
  unfold keepUp
  have e : GoFloat.max (σ.s a) (locIn σ v).trailUp = σ.s (GoFloat.max a v.trailUp) := σ.max _ _
  simp only [e, σ.eq]
  split <;> rfl
theorem keepDn_conv (i : Int) (a : F) (v : Loc F) : keepDn i (σ.s a) (locIn σ v) = locIn σ (keepDn i a v) := by
  unfold keepDn
  have e : GoFloat.min (σ.s a) (locIn σ v).trailDn = σ.s (GoFloat.min a v.trailDn) := σ.min _ _
  simp only [e, σ.eq]
  split <;> rfl

theorem takeSwings_conv (swing i : Int) (high low top btm itop ibtm : F) (v : Loc F) :
    takeSwings swing i (σ.s high) (σ.s low) (σ.s top) (σ.s btm) (σ.s itop) (σ.s ibtm) (locIn σ v) =
      locIn σ (takeSwings swing i high low top btm itop ibtm v) := by
  simp only [takeSwings_eq, keepTop_conv, keepItop_conv, keepBtm_conv, keepIbtm_conv, keepUp_conv, keepDn_conv]

theorem highShort_conv {w : List F} {m : List Bool} (o : OHLC F) (c h l a : List F) (i : Int) (s : Obj F × Loc F) (hl : Fits σ l) :
    GoRel (Conv (stIn2 σ)) (highShort o c h l a i s)
      (highShort (ohlcIn σ w m o) (c.map σ.s) (h.map σ.s) (l.map σ.s) (a.map σ.s) i (stIn2 σ s)) := by
  obtain ⟨e, v⟩ := s
  unfold highShort
  dsimp only [stIn2]
  refine GoRel.bind (CrossOver_conv σ c v.itopY) ?_
  rintro b _ rfl
  have q : ((locIn σ v).topY ==. (locIn σ v).itopY) = (v.topY ==. v.itopY) := σ.eq _ _
  rw [q]
  refine ite_conv (fun _ => ?_) (fun _ => rfl)
  refine GoRel.bind (R := Conv (List.map (recIn σ))) ?_ ?_
  · refine ite_conv (fun _ => draw_conv σ _ _ _ fun r => rfl) (fun _ => draw_conv σ _ _ _ fun r => rfl)
  · rintro d _ rfl
    refine GoRel.bind (obCoord_conv σ o { e with data := d } false i v.itopX h l a e.bull 1 hl) ?_
    rintro ⟨e1, l1⟩ _ rfl
    exact rfl

theorem highLong_conv {w : List F} {m : List Bool} (o : OHLC F) (c h l a : List F) (i : Int) (s : Obj F × Loc F) (hl : Fits σ l) :
    GoRel (Conv (stIn2 σ)) (highLong o c h l a i s)
      (highLong (ohlcIn σ w m o) (c.map σ.s) (h.map σ.s) (l.map σ.s) (a.map σ.s) i (stIn2 σ s)) := by
  obtain ⟨e, v⟩ := s
  unfold highLong
  dsimp only [stIn2]
  refine GoRel.bind (CrossOver_conv σ c v.topY) ?_
  rintro b _ rfl
  refine ite_conv (fun _ => ?_) (fun _ => rfl)
  refine GoRel.bind (R := Conv (List.map (recIn σ))) ?_ ?_
  · refine ite_conv (fun _ => draw_conv σ _ _ _ fun r => rfl) (fun _ => draw_conv σ _ _ _ fun r => rfl)
  · rintro d _ rfl
    refine GoRel.bind (obCoord_conv σ o { e with data := d } false i v.topX h l a e.bear 2 hl) ?_
    rintro ⟨e1, l1⟩ _ rfl
    exact rfl

theorem lowShort_conv {w : List F} {m : List Bool} (o : OHLC F) (c h l a : List F) (i : Int) (s : Obj F × Loc F) (hl : Fits σ l) :
    GoRel (Conv (stIn2 σ)) (lowShort o c h l a i s)
      (lowShort (ohlcIn σ w m o) (c.map σ.s) (h.map σ.s) (l.map σ.s) (a.map σ.s) i (stIn2 σ s)) := by
  obtain ⟨e, v⟩ := s
  unfold lowShort
  dsimp only [stIn2]
  refine GoRel.bind (CrossUnder_conv σ c v.ibtmY) ?_
  rintro b _ rfl
  have q : ((locIn σ v).btmY ==. (locIn σ v).ibtmY) = (v.btmY ==. v.ibtmY) := σ.eq _ _
  rw [q]
  refine ite_conv (fun _ => ?_) (fun _ => rfl)
  refine GoRel.bind (R := Conv (List.map (recIn σ))) ?_ ?_
  · refine ite_conv (fun _ => draw_conv σ _ _ _ fun r => rfl) (fun _ => draw_conv σ _ _ _ fun r => rfl)
  · rintro d _ rfl
    refine GoRel.bind (obCoord_conv σ o { e with data := d } true i v.ibtmX h l a e.bull 1 hl) ?_
    rintro ⟨e1, l1⟩ _ rfl
    exact rfl

theorem lowLong_conv {w : List F} {m : List Bool} (o : OHLC F) (c h l a : List F) (i : Int) (s : Obj F × Loc F) (hl : Fits σ l) :
    GoRel (Conv (stIn2 σ)) (lowLong o c h l a i s)
      (lowLong (ohlcIn σ w m o) (c.map σ.s) (h.map σ.s) (l.map σ.s) (a.map σ.s) i (stIn2 σ s)) := by
  obtain ⟨e, v⟩ := s
  unfold lowLong
  dsimp only [stIn2]
  refine GoRel.bind (CrossUnder_conv σ c v.btmY) ?_
  rintro b _ rfl
  refine ite_conv (fun _ => ?_) (fun _ => rfl)
  refine GoRel.bind (R := Conv (List.map (recIn σ))) ?_ ?_
  · refine ite_conv (fun _ => draw_conv σ _ _ _ fun r => rfl) (fun _ => draw_conv σ _ _ _ fun r => rfl)
  · rintro d _ rfl
    refine GoRel.bind (obCoord_conv σ o { e with data := d } true i v.btmX h l a e.bear 2 hl) ?_
    rintro ⟨e1, l1⟩ _ rfl
    exact rfl

theorem broken_conv (c : F) (b : Block F) : broken (σ.s c) (blockIn σ b) = broken c b := by
  simp only [broken, blockIn, GoFloat.gt, σ.lt]

theorem marked_conv (c : F) (number : Int) (l : List (Block F)) : ∀ (j : Int) (r : List (Block F)),
    marked (σ.s c) number j (l.map (blockIn σ)) (r.map (blockIn σ)) = (marked c number j l r).map (blockIn σ) := by
  induction l with
  | nil => intro j r; rfl
  | cons b l ih =>
    intro j r
    simp only [List.map_cons, marked, broken_conv]
    have e1 : (if broken c b = true then r.map (blockIn σ) ++ [blockIn σ b] else r.map (blockIn σ)) =
        (if broken c b = true then r ++ [b] else r).map (blockIn σ) := by split <;> simp
    rw [e1]
    generalize (if broken c b = true then r ++ [b] else r) = r1
    rw [Contains_conv]
    have e2 : (if j > number ∧ (!Contains r1 b) = true then r1.map (blockIn σ) ++ [blockIn σ b] else r1.map (blockIn σ)) =
        (if j > number ∧ (!Contains r1 b) = true then r1 ++ [b] else r1).map (blockIn σ) := by split <;> simp
    rw [e2, ih]

theorem removeAll_conv (m : List (Block F)) : ∀ l : List (Block F),
    GoRel (Conv (List.map (blockIn σ))) (removeAll m l) (removeAll (m.map (blockIn σ)) (l.map (blockIn σ))) := by
  induction m with
  | nil => intro l; exact rfl
  | cons b m ih =>
    intro l
    simp only [List.map_cons, removeAll]
    refine GoRel.bind (Remove_conv σ l b) ?_
    rintro l1 _ rfl
    exact ih l1

theorem prune_conv (c : F) (number : Int) (l : List (Block F)) :
    GoRel (Conv (List.map (blockIn σ))) (prune c number l) (prune (σ.s c) number (l.map (blockIn σ))) := by
  unfold prune
  have := marked_conv σ c number l 0 []
  rw [List.map_nil] at this
  rw [this]
  exact removeAll_conv σ _ l

theorem equals_conv (g : Cfg) (h l : List F) (a : F) (i : Int) (s : Obj F × Loc F) :
    GoRel (Conv (stIn2 σ)) (equals g h l a i s) (equals g (h.map σ.s) (l.map σ.s) (σ.s a) i (stIn2 σ s)) := by
  obtain ⟨e, v⟩ := s
  unfold equals
  dsimp only [stIn2]
  refine GoRel.bind (PivotHigh_conv σ h _ _) ?_
  rintro u _ rfl
  rw [List.length_map]
  refine GoRel.bind (idx_conv σ.s u _) ?_
  rintro top _ rfl
  refine GoRel.bind (PivotLow_conv σ l _ _) ?_
  rintro w _ rfl
  rw [List.length_map]
  refine GoRel.bind (idx_conv σ.s w _) ?_
  rintro btm _ rfl
  rw [σ.eq_zero, σ.eq_zero]
  refine GoRel.bind (R := Conv (stIn2 σ)) ?_ ?_
  · refine ite_conv (fun _ => ?_) (fun _ => rfl)
    refine GoRel.bind (R := Conv (List.map (recIn σ))) ?_ ?_
    · have q : (GoFloat.max (σ.s top) (locIn σ v).eqPrevTop <. (GoFloat.min (σ.s top) (locIn σ v).eqPrevTop +. σ.s a *. fl g.thr /. fl 10)) =
        (GoFloat.max top v.eqPrevTop <. (GoFloat.min top v.eqPrevTop +. a *. fl g.thr /. fl 10)) := by
        simp only [locIn, σ.max, σ.min, σ.mul_left, σ.div_left, σ.add, σ.lt]
      exact ite_conv_iff (by rw [← q]) (draw_conv σ _ _ _ fun r => rfl) rfl
    · rintro d _ rfl
      exact rfl
  · rintro ⟨e, v⟩ _ rfl
    dsimp only [stIn2]
    refine ite_conv (fun _ => ?_) (fun _ => rfl)
    refine GoRel.bind (R := Conv (List.map (recIn σ))) ?_ ?_
    · have q : (GoFloat.min (σ.s btm) (locIn σ v).eqPrevBtm >. (GoFloat.max (σ.s btm) (locIn σ v).eqPrevBtm -. σ.s a *. fl g.thr /. fl 10)) =
        (GoFloat.min btm v.eqPrevBtm >. (GoFloat.max btm v.eqPrevBtm -. a *. fl g.thr /. fl 10)) := by
        simp only [locIn, GoFloat.gt, σ.max, σ.min, σ.mul_left, σ.div_left, σ.sub, σ.lt]
      exact ite_conv_iff (by rw [← q]) (draw_conv σ _ _ _ fun r => rfl) rfl
    · rintro d _ rfl
      exact rfl

theorem levels_conv (t : List Int) (s : Obj F × Loc F) : GoRel (Conv (stIn2 σ)) (levels t s) (levels t (stIn2 σ s)) := by
  obtain ⟨e, v⟩ := s
  unfold levels
  dsimp only [stIn2]
  refine GoRel.bind (GoRel.same (idx t v.trailUpX)) ?_
  rintro tu _ rfl
  refine GoRel.bind (GoRel.same (idx t v.trailDnX)) ?_
  rintro td _ rfl
  show _ = _
  show (_, _) = (_, _)
  congr 1
  have e1 : (locIn σ v).trend = v.trend := rfl
  rw [e1]
  split <;> split <;> rfl

theorem step_conv {w : List F} {m : List Bool} (g : Cfg) (o : OHLC F) (a : List F) (i : Int) (s : Obj F × Loc F) (hl : Fits σ o.low) :
    GoRel (Conv (stIn2 σ)) (step g o a i s) (step g (ohlcIn σ w m o) (a.map σ.s) i (stIn2 σ s)) := by
  obtain ⟨e, v⟩ := s
  unfold step
  dsimp only [stIn2]
  refine GoRel.bind (idx_conv σ.s o.close _) ?_
  rintro close _ rfl
  refine GoRel.bind (idx_conv σ.s o.high _) ?_
  rintro high _ rfl
  refine GoRel.bind (idx_conv σ.s o.low _) ?_
  rintro low _ rfl
  refine GoRel.bind (GoRel.same (idx o.timeUnix i)) ?_
  rintro _ time rfl
  rw [trailInit_conv]
  refine ite_conv (fun _ => rfl) (fun _ => ?_)
  refine GoRel.bind (slice_conv σ.s o.high _ _) ?_
  rintro h _ rfl
  cases el : slice o.low 0 (i + 1) with
  | error p =>
    have := slice_conv σ.s o.low 0 (i + 1)
    rw [el] at this
    cases el' : slice (o.low.map σ.s) 0 (i + 1) with
    | ok q => rw [el'] at this; exact this.elim
    | error q =>
      rw [el'] at this
      have el'' : slice (ohlcIn σ w m o).low 0 (i + 1) = .error q := el'
      rw [el'']
      exact this
  | ok l =>
    have := slice_conv σ.s o.low 0 (i + 1)
    rw [el] at this
    have hfit : Fits σ l := by
      intro x hx
      unfold slice at el
      split at el
      · cases el
        exact hl x (List.mem_of_mem_take (List.mem_of_mem_drop hx))
      · cases el
    have el'' : slice (ohlcIn σ w m o).low 0 (i + 1) = .ok (l.map σ.s) := by
      show slice (o.low.map σ.s) 0 (i + 1) = _
      cases el' : slice (o.low.map σ.s) 0 (i + 1) with
      | error q => rw [el'] at this; exact this.elim
      | ok q => rw [el'] at this; exact congrArg _ this
    rw [el'', ok_bind, ok_bind]
    refine GoRel.bind (swings_conv σ h l _ _) ?_
    rintro ⟨top, btm, os1⟩ _ rfl
    dsimp only
    refine GoRel.bind (swings_conv σ h l _ _) ?_
    rintro ⟨itop, ibtm, os2⟩ _ rfl
    dsimp only
    rw [takeSwings_conv]
    refine GoRel.bind (slice_conv σ.s o.close _ _) ?_
    rintro c _ rfl
    refine GoRel.bind (slice_conv σ.s a _ _) ?_
    rintro at_ _ rfl
    refine GoRel.bind (highShort_conv σ o c h l at_ i (_, _) hfit) ?_
    rintro s _ rfl
    refine GoRel.bind (highLong_conv σ o c h l at_ i s hfit) ?_
    rintro s _ rfl
    refine GoRel.bind (lowShort_conv σ o c h l at_ i s hfit) ?_
    rintro s _ rfl
    refine GoRel.bind (lowLong_conv σ o c h l at_ i s hfit) ?_
    rintro ⟨e, v⟩ _ rfl
    dsimp only [stIn2]
    refine GoRel.bind (prune_conv σ close g.number e.bull) ?_
    rintro bull _ rfl
    refine GoRel.bind (prune_conv σ close g.number e.bear) ?_
    rintro bear _ rfl
    refine GoRel.bind (idx_conv σ.s a _) ?_
    rintro a1 _ rfl
    refine GoRel.bind (R := Conv (stIn2 σ)) ?_ ?_
    · exact ite_conv (fun _ => equals_conv σ g h l a1 i (_, _)) (fun _ => rfl)
    · rintro s _ rfl
      refine GoRel.bind (levels_conv σ o.timeUnix s) ?_
      rintro ⟨e, v⟩ _ rfl
      dsimp only [stIn2]
      refine GoRel.bind (idx_conv (recIn σ) e.data i) ?_
      rintro r _ rfl
      refine GoRel.bind (setAt_conv (recIn σ) e.data i { r with time := time }) ?_
      rintro d _ rfl
      exact rfl

theorem Calculation_conv (g : Cfg) (n : Nat) (x y : Nat → Candle F) (e : Obj F) (hop : ∀ j, op y j = σ.s (op x j))
    (hhi : ∀ j, hi y j = σ.s (hi x j)) (hlo : ∀ j, lo y j = σ.s (lo x j)) (hcl : ∀ j, cl y j = σ.s (cl x j)) (hti : ∀ j, ti y j = ti x j)
    (hl : Fits σ (tab n (lo x))) :
    GoRel (Conv (objIn σ)) (Calculation g (ohlcOf n x) e) (Calculation g (ohlcOf n y) (objIn σ e)) := by
  unfold Calculation
  have e0 : ohlcOf n y = ohlcIn σ (tab n (vo y)) (tab n (bu y)) (ohlcOf n x) := by
    simp only [ohlcOf, ohlcIn, map_tab]
    rw [funext hop, funext hhi, funext hlo, funext hcl, funext hti]
  have e1 : (ohlcOf n y).close.length = (ohlcOf n x).close.length := by simp [ohlcOf]
  rw [e1]
  refine GoRel.bind (R := Conv (List.map σ.s)) ?_ ?_
  · show GoRel _ (Atr (tab n (hi x)) (tab n (lo x)) (tab n (cl x)) 200) (Atr (tab n (hi y)) (tab n (lo y)) (tab n (cl y)) 200)
    by_cases hp : okAtr 200 n
    · rw [Atr_ok _ _ _ hp, Atr_ok _ _ _ hp]
      show _ = List.map σ.s _
      rw [map_tab]
      exact tab_ext fun i _ => atrI_scale σ hhi hlo hcl 200 i
    · have ha := Atr_tab 200 n (by omega) (hi x) (lo x) (cl x)
      have ha' := Atr_tab 200 n (by omega) (hi y) (lo y) (cl y)
      have hn : ¬ 200 < n := fun h => hp (.inr (by omega))
      rw [if_neg (by omega)] at ha ha'
      rw [show (200 : Int) = ((200 : Nat) : Int) from rfl, ha, ha']
      exact rfl
  · rintro a _ rfl
    refine GoRel.bind (R := Conv (List.map (recIn σ))) ?_ ?_
    · unfold mk
      split
      · show _ = _
        rw [List.map_replicate, rec_zero]
      · exact rfl
    rintro d _ rfl
    refine GoRel.bind (R := Conv (stIn2 σ)) ?_ ?_
    · refine GoRel.goFor ?_ ?_
      · show _ = stIn2 σ _
        rw [stIn2, loc_new]
        rfl
      · rintro i s _ rfl
        rw [e0]
        exact step_conv σ g _ a i s hl
    · rintro ⟨e, v⟩ _ rfl
      exact rfl

end Verif.Ind.Smc
