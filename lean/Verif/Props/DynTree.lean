import Verif.Container.Dyn
import Verif.Props.Containers

/-!
# C112: the search tree and the run-time types of its values
-/

namespace Verif.Props
open Verif.Container

variable {F O : Type} [GoFloat F]

/-! ## Specification -/

/-- The three kinds of values a tree can order. -/
inductive Kind | float64 | int64 | comparable
  deriving DecidableEq

/-- The kind of a value; values of any other type have none. -/
def kindOf : Val F O → Option Kind
  | .float _ => some .float64
  | .int _ => some .int64
  | .obj _ => some .comparable
  | .other _ => none

/-- A value fits a tree: every value stored is of its kind. -/
def Fits (x : Val F O) (t : Bst (Val F O)) : Prop := ∃ k, kindOf x = some k ∧ ∀ v ∈ t.toList, kindOf v = some k

/-- A call on a tree of dynamic values. -/
inductive DynOp (F O : Type) where
  | insert (x : Val F O)
  | remove (x : Val F O)

/-- `Reaches m t ops u`: the calls `ops` on the tree `t` all return, and leave the tree `u`. -/
inductive Reaches (m : O → O → Int) : Bst (Val F O) → List (DynOp F O) → Bst (Val F O) → Prop where
  | done (t) : Reaches m t [] t
  | insert {x t t' ops u} : t.insertDyn m x = .ok t' → Reaches m t' ops u → Reaches m t (.insert x :: ops) u
  | remove {x t t' ops u n b} : t.removeDyn m n x = some (.ok (b, t')) → Reaches m t' ops u →
      Reaches m t (.remove x :: ops) u

/-- A typed call as calls with dynamic values; `Inserts` inserts one value after the other (container/bst/bst.go:24-29). -/
def dynOps {V : Type} (e : V → Val F O) : BstOp V → List (DynOp F O)
  | .insert v => [.insert (e v)]
  | .inserts vs => vs.map fun v => .insert (e v)
  | .remove v => [.remove (e v)]

/-! ## One kind of values -/

theorem Reaches.append {m : O → O → Int} {t u w : Bst (Val F O)} {a b : List (DynOp F O)} (h : Reaches m t a u)
    (h' : Reaches m u b w) : Reaches m t (a ++ b) w := by
  induction h with
  | done t => exact h'
  | insert hi _ ih => exact .insert hi (ih h')
  | remove hr _ ih => exact .remove hr (ih h')

theorem reaches_map {V : Type} {e : V → Val F O} {cmp : V → V → Int} {m : O → O → Int}
    (h : ∀ a b, Compare m (e a) (e b) = .ok (cmp a b)) (hc : ∀ a b, cmp a b = -1 ∨ cmp a b = 0 ∨ cmp a b = 1)
    (ops : List (BstOp V)) (t : Bst V) :
    Reaches m (t.mapVal e) (ops.flatMap (dynOps e)) ((ops.foldl (BstOp.apply cmp) t).mapVal e) := by
  induction ops generalizing t with
  | nil => exact .done _
  | cons op ops ih =>
    rw [List.flatMap_cons, List.foldl_cons]
    refine Reaches.append ?_ (ih _)
    cases op with
    | insert v => exact .insert (Bst.insertDyn_map h v t) (.done _)
    | remove v => exact .remove (Bst.removeDyn_map h hc v t (Nat.lt_succ_self _)) (.done _)
    | inserts vs =>
      simp only [dynOps, BstOp.apply, Bst.inserts]
      induction vs generalizing t with
      | nil => exact .done _
      | cons v vs ihv => exact .insert (Bst.insertDyn_map h v t) (ihv _)

theorem compareFloat64_cases (a b : F) : compareFloat64 a b = -1 ∨ compareFloat64 a b = 0 ∨ compareFloat64 a b = 1 := by
  unfold compareFloat64; split_ifs <;> simp

theorem compareInt64_cases (a b : Int) : compareInt64 a b = -1 ∨ compareInt64 a b = 0 ∨ compareInt64 a b = 1 := by
  unfold compareInt64; split_ifs <;> simp

/-- **C112 (one kind).** Calls with `float64` values only, with `int64` values only, or with values of a user's type whose
`Compare` answers -1, 0 or 1, always return and do to the dynamic tree what they do to the typed one, of which C01 says that
it is a bag. -/
theorem C112_one_kind (m : O → O → Int) :
    (∀ ops : List (BstOp F), Reaches m .nil (ops.flatMap (dynOps .float))
      ((ops.foldl (BstOp.apply compareFloat64) .nil).mapVal (.float : F → Val F O))) ∧
    (∀ ops : List (BstOp Int), Reaches m .nil (ops.flatMap (dynOps .int))
      ((ops.foldl (BstOp.apply compareInt64) .nil).mapVal (.int : Int → Val F O))) ∧
    ((∀ a b, m a b = -1 ∨ m a b = 0 ∨ m a b = 1) → ∀ ops : List (BstOp O), Reaches m .nil (ops.flatMap (dynOps .obj))
      ((ops.foldl (BstOp.apply m) .nil).mapVal (.obj : O → Val F O))) :=
  ⟨fun ops => reaches_map (fun _ _ => rfl) compareFloat64_cases ops .nil,
    fun ops => reaches_map (fun _ _ => rfl) compareInt64_cases ops .nil,
    fun h ops => reaches_map (fun _ _ => rfl) h ops .nil⟩

/-! ## Mixed values -/

theorem compare_ok_iff (m : O → O → Int) (x v : Val F O) :
    (∃ c, Compare m x v = .ok c) ↔ ∃ k, kindOf x = some k ∧ kindOf v = some k := by
  cases x <;> cases v <;> simp [Compare, kindOf]

/-- What a tree that has never made a call panic looks like. -/
def OneKind (t : Bst (Val F O)) : Prop := (∃ k, ∀ v ∈ t.toList, kindOf v = some k) ∨ ∃ n, t = .node .nil (.other n) .nil

theorem insertDyn_root {m : O → O → Int} {x v : Val F O} {l r : Bst (Val F O)} {u : Bst (Val F O)}
    (h : Bst.insertDyn m x (.node l v r) = .ok u) : ∃ k, kindOf x = some k ∧ kindOf v = some k := by
  rw [← compare_ok_iff m]
  cases hc : Compare m x v with
  | ok c => exact ⟨c, rfl⟩
  | error e => simp [Bst.insertDyn, hc, bind, Except.bind] at h

theorem insertDyn_perm {m : O → O → Int} {x : Val F O} {t u : Bst (Val F O)} (h : t.insertDyn m x = .ok u) :
    u.toList.Perm (x :: t.toList) := by
  induction t generalizing u with
  | nil => cases h; exact .refl _
  | node l v r ihl ihr =>
    cases hc : Compare m x v with
    | error e => simp [Bst.insertDyn, hc, bind, Except.bind] at h
    | ok c =>
      by_cases h0 : c ≤ 0
      · cases hl : l.insertDyn m x with
        | error e => simp [Bst.insertDyn, hc, h0, hl, bind, Except.bind] at h
        | ok l' =>
          simp [Bst.insertDyn, hc, h0, hl, bind, Except.bind, pure, Except.pure] at h
          subst h
          exact (ihl hl).append_right (v :: r.toList)
      · cases hr : r.insertDyn m x with
        | error e => simp [Bst.insertDyn, hc, h0, hr, bind, Except.bind] at h
        | ok r' =>
          simp [Bst.insertDyn, hc, h0, hr, bind, Except.bind, pure, Except.pure] at h
          subst h
          have := (((ihr hr).cons v).trans (List.Perm.swap x v r.toList)).append_left l.toList
          exact this.trans List.perm_middle

theorem removeDyn_sub {m : O → O → Int} {x : Val F O} {t u : Bst (Val F O)} {n : Nat} {b : Bool}
    (h : t.removeDyn m n x = some (.ok (b, u))) : ∀ v ∈ u.toList, v ∈ t.toList := by
  induction n generalizing t u b with
  | zero => simp [Bst.removeDyn] at h
  | succ n ih =>
    cases t with
    | nil => simp [Bst.removeDyn] at h; obtain ⟨_, rfl⟩ := h; simp
    | node l v r =>
      cases hc : Compare m x v with
      | error e => simp [Bst.removeDyn, hc] at h
      | ok c =>
        simp only [Bst.removeDyn, hc] at h
        split_ifs at h with h0 h1 h2
        · simp only [Option.some.injEq, Except.ok.injEq, Prod.mk.injEq] at h
          obtain ⟨_, rfl⟩ := h
          intro w hw
          rw [Bst.toList_removeNode] at hw
          simp only [Bst.toList, List.mem_append, List.mem_cons] at hw ⊢
          tauto
        · rcases hl : l.removeDyn m n x with _ | (e | ⟨b', l'⟩) <;> simp [hl, Except.map] at h
          obtain ⟨_, rfl⟩ := h
          intro w hw
          have := ih hl w
          simp only [Bst.toList, List.mem_append, List.mem_cons] at hw ⊢
          tauto
        · rcases hr : r.removeDyn m n x with _ | (e | ⟨b', r'⟩) <;> simp [hr, Except.map] at h
          obtain ⟨_, rfl⟩ := h
          intro w hw
          have := ih hr w
          simp only [Bst.toList, List.mem_append, List.mem_cons] at hw ⊢
          tauto
        · exact ih h

theorem removeDyn_root {m : O → O → Int} {x v : Val F O} {l r : Bst (Val F O)} {n : Nat} {q}
    (h : Bst.removeDyn m n x (.node l v r) = some (.ok q)) : ∃ k, kindOf x = some k ∧ kindOf v = some k := by
  rw [← compare_ok_iff m]
  cases hc : Compare m x v with
  | ok c => exact ⟨c, rfl⟩
  | error e => cases n <;> simp [Bst.removeDyn, hc] at h

theorem OneKind.insert {m : O → O → Int} {x : Val F O} {t u : Bst (Val F O)} (ht : OneKind t) (h : t.insertDyn m x = .ok u) :
    OneKind u := by
  cases t with
  | nil =>
    cases h
    cases hk : kindOf x with
    | none => cases x <;> simp_all [kindOf, OneKind]
    | some k => exact .inl ⟨k, by simp [Bst.toList, hk]⟩
  | node l v r =>
    obtain ⟨k, hx, hv⟩ := insertDyn_root h
    rcases ht with ⟨k', hk'⟩ | ⟨a, ha⟩
    · have e : k' = k := Option.some.inj ((hk' v (by simp [Bst.toList])).symm.trans hv)
      subst e
      refine .inl ⟨k', fun w hw => ?_⟩
      rcases List.mem_cons.mp ((insertDyn_perm h).mem_iff.mp hw) with rfl | hw
      · exact hx
      · exact hk' w hw
    · cases ha; simp [kindOf] at hv

theorem OneKind.remove {m : O → O → Int} {x : Val F O} {t u : Bst (Val F O)} {n : Nat} {b : Bool} (ht : OneKind t)
    (h : t.removeDyn m n x = some (.ok (b, u))) : OneKind u := by
  rcases ht with ⟨k, hk⟩ | ⟨a, rfl⟩
  · exact .inl ⟨k, fun w hw => hk w (removeDyn_sub h w hw)⟩
  · obtain ⟨k, _, hv⟩ := removeDyn_root h; simp [kindOf] at hv

theorem Reaches.oneKind {m : O → O → Int} {t u : Bst (Val F O)} {ops} (h : Reaches m t ops u) (ht : OneKind t) : OneKind u := by
  induction h with
  | done t => exact ht
  | insert hi _ ih => exact ih (ht.insert hi)
  | remove hr _ ih => exact ih (ht.remove hr)

omit [GoFloat F] in
theorem OneKind.nil : OneKind (Bst.nil : Bst (Val F O)) := .inl ⟨.int64, by simp [Bst.toList]⟩

theorem compare_error {m : O → O → Int} {x v : Val F O} (h : ¬ ∃ k, kindOf x = some k ∧ kindOf v = some k) :
    ∃ e, Compare m x v = .error e := by
  cases hc : Compare m x v with
  | error e => exact ⟨e, rfl⟩
  | ok c => exact absurd ((compare_ok_iff m x v).mp ⟨c, hc⟩) h

omit [GoFloat F] in
theorem OneKind.fits_root {x v : Val F O} {l r : Bst (Val F O)} (ht : OneKind (.node l v r)) :
    Fits x (.node l v r) ↔ ∃ k, kindOf x = some k ∧ kindOf v = some k := by
  refine ⟨fun ⟨k, hx, h⟩ => ⟨k, hx, h v (by simp [Bst.toList])⟩, fun ⟨k, hx, hv⟩ => ?_⟩
  rcases ht with ⟨k', hk'⟩ | ⟨a, ha⟩
  · have e : k' = k := Option.some.inj ((hk' v (by simp [Bst.toList])).symm.trans hv)
    exact ⟨k, hx, e ▸ hk'⟩
  · cases ha; simp [kindOf] at hv

theorem insertDyn_fits {m : O → O → Int} {x : Val F O} {t : Bst (Val F O)} (h : Fits x t) : ∃ u, t.insertDyn m x = .ok u := by
  obtain ⟨k, hx, h⟩ := h
  induction t with
  | nil => exact ⟨_, rfl⟩
  | node l v r ihl ihr =>
    simp only [Bst.toList, List.mem_append, List.mem_cons] at h
    obtain ⟨c, hc⟩ := (compare_ok_iff m x v).mpr ⟨k, hx, h v (by simp)⟩
    obtain ⟨l', hl⟩ := ihl fun w hw => h w (.inl hw)
    obtain ⟨r', hr⟩ := ihr fun w hw => h w (.inr (.inr hw))
    simp only [Bst.insertDyn, hc, hl, hr, bind, Except.bind, pure, Except.pure]
    split_ifs <;> exact ⟨_, rfl⟩

theorem removeDyn_fits {m : O → O → Int} {x : Val F O} {t : Bst (Val F O)} (h : Fits x t) (n : Nat) (e : Panic) :
    t.removeDyn m n x ≠ some (.error e) := by
  obtain ⟨k, hx, h⟩ := h
  induction n generalizing t with
  | zero => simp [Bst.removeDyn]
  | succ n ih =>
    cases t with
    | nil => simp [Bst.removeDyn]
    | node l v r =>
      obtain ⟨c, hc⟩ := (compare_ok_iff m x v).mpr ⟨k, hx, h v (by simp [Bst.toList])⟩
      have hl := @ih l fun w hw => h w (by simp [Bst.toList, hw])
      have hr := @ih r fun w hw => h w (by simp [Bst.toList, hw])
      simp only [Bst.removeDyn, hc]
      split_ifs
      · simp
      · rcases hl' : l.removeDyn m n x with _ | (e' | q) <;> simp [hl', Except.map] at hl ⊢
        exact hl
      · rcases hr' : r.removeDyn m n x with _ | (e' | q) <;> simp [hr', Except.map] at hr ⊢
        exact hr
      · exact ih h

/-- **C112 (mixed).** After any calls that returned, on a tree that is not empty, `Insert` and `Remove` panic exactly for the
values that do not fit: values of another kind than those stored, and values of no kind. On the empty tree neither panics. -/
theorem C112_panic_iff (m : O → O → Int) {ops : List (DynOp F O)} {t : Bst (Val F O)} (ht : Reaches m .nil ops t)
    (x : Val F O) :
    ((∃ e, t.insertDyn m x = .error e) ↔ t ≠ .nil ∧ ¬ Fits x t) ∧
      ((∃ n e, t.removeDyn m n x = some (.error e)) ↔ t ≠ .nil ∧ ¬ Fits x t) := by
  have hp := ht.oneKind OneKind.nil
  cases t with
  | nil =>
    refine ⟨by simp [Bst.insertDyn], ⟨fun ⟨n, e, h⟩ => ?_, fun h => absurd rfl h.1⟩⟩
    cases n <;> simp [Bst.removeDyn] at h
  | node l v r =>
    have hf := hp.fits_root (x := x)
    refine ⟨⟨fun ⟨e, h⟩ => ⟨by simp, fun hx => ?_⟩, fun ⟨_, h⟩ => ?_⟩,
      ⟨fun ⟨n, e, h⟩ => ⟨by simp, fun hx => removeDyn_fits hx n e h⟩, fun ⟨_, h⟩ => ?_⟩⟩
    · obtain ⟨u, hu⟩ := insertDyn_fits (m := m) hx
      rw [hu] at h; cases h
    · obtain ⟨e, he⟩ := compare_error (m := m) (fun hk => h (hf.mpr hk))
      exact ⟨e, by simp [Bst.insertDyn, he, bind, Except.bind]⟩
    · obtain ⟨e, he⟩ := compare_error (m := m) (fun hk => h (hf.mpr hk))
      exact ⟨1, e, by simp [Bst.removeDyn, he]⟩

/-- **C112 (poison).** A value of no kind is accepted by the empty tree. From then on every `Insert` and every `Remove`
panics, the removal of that value included. -/
theorem C112_poison (m : O → O → Int) (a : Nat) : ∃ t : Bst (Val F O), Reaches m .nil [.insert (.other a)] t ∧
    ∀ x : Val F O, (∃ e, t.insertDyn m x = .error e) ∧ ∃ n e, t.removeDyn m n x = some (.error e) := by
  have ht : Reaches m .nil [.insert (.other a)] (.node .nil (.other a : Val F O) .nil) := .insert rfl (.done _)
  refine ⟨_, ht, fun x => ?_⟩
  have hx : ¬ Fits x (.node .nil (.other a : Val F O) .nil) := fun ⟨k, _, h⟩ => by
    simpa [kindOf] using h (.other a) (by simp [Bst.toList])
  exact ⟨(C112_panic_iff m ht x).1.mpr ⟨by simp, hx⟩, (C112_panic_iff m ht x).2.mpr ⟨by simp, hx⟩⟩

/-- **C112 (refuted: any negative or positive answer will do).** `Remove` never returns when the method `Compare` of the value
answers something other than -1, 0 and 1 against the root, though `Insert` accepts such a value. -/
theorem C112_spin_refuted (m : O → O → Int) {a b : O} (h : m a b ≠ -1 ∧ m a b ≠ 0 ∧ m a b ≠ 1) (l r : Bst (Val F O)) (n : Nat) :
    Bst.removeDyn m n (.obj a : Val F O) (.node l (.obj b) r) = none := by
  induction n with
  | zero => rfl
  | succ n ih => simp only [Bst.removeDyn, Compare]; rw [if_neg h.2.1, if_neg h.1, if_neg h.2.2, ih]

/-- The user's `Compare` is `a - b`, as a comparison of strings or ages is often written: 5 goes in beside 1 and never comes
out again. -/
example : let m : Int → Int → Int := fun a b => a - b
    (m 5 1 ≠ -1 ∧ m 5 1 ≠ 0 ∧ m 5 1 ≠ 1) ∧
    Bst.insertDyn m (.obj 5 : Val (XF ℚ) Int) (.node .nil (.obj 1) .nil) = .ok (.node .nil (.obj 1) (.node .nil (.obj 5) .nil)) ∧
    Bst.removeDyn m 1000 (.obj 5 : Val (XF ℚ) Int) (.node .nil (.obj 1) (.node .nil (.obj 5) .nil)) = none := by
  decide +kernel

/-- A reached tree of two `float64` values, and an `int64` value that does not fit it. -/
example : Reaches (F := XF ℚ) (fun a b : Int => a - b) .nil [.insert (.float (.fin 2)), .insert (.float (.fin 1))]
      (.node (.node .nil (.float (.fin 1)) .nil) (.float (.fin 2)) .nil) ∧
    ¬ Fits (O := Int) (.int 3) (.node (.node .nil (.float (.fin 1 : XF ℚ)) .nil) (.float (.fin 2)) .nil) := by
  refine ⟨.insert rfl (.insert (by decide +kernel) (.done _)), fun ⟨k, h, h'⟩ => ?_⟩
  have := h' (.float (.fin 2)) (by simp [Bst.toList])
  cases k <;> simp_all [kindOf]

/-- The contract of C112 (one kind) for a user's type: strings by length. -/
example : ∀ a b : String, compareInt64 a.length b.length = -1 ∨ compareInt64 a.length b.length = 0 ∨
    compareInt64 a.length b.length = 1 := fun _ _ => compareInt64_cases _ _

end Verif.Props
