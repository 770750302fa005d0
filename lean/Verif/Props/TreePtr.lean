import Verif.Container.BstHeap
import Verif.Props.Containers

/-!
# C98: the search tree with pointers and dynamic values
-/

namespace Verif.Container.Ptr
open Verif Verif.Container

/-- A value behind `interface{}`. Simplification: values whose type implements `Comparable` (none in the library) are not
modelled; every other type is `other`. -/
inductive Dyn (F : Type) where
  | f64 (x : F)
  | i64 (x : Int)
  | other
  deriving DecidableEq

/-- Models container/comparable.go:14-28 `Compare`. -/
def Compare {F : Type} [GoFloat F] : Dyn F → Dyn F → Go Int
  | .f64 a, .f64 b => .ok (compareFloat64 a b)
  | .f64 _, _ => .error .typeAssert
  | .i64 a, .i64 b => .ok (compareInt64 a b)
  | .i64 _, _ => .error .typeAssert
  | .other, _ => .error (.explicit "not comparable")

end Verif.Container.Ptr

namespace Verif.Props
open Verif Verif.Container Verif.Container.Ptr

variable {F : Type} [GoFloat F]

/-- A call on the tree. -/
inductive TreeCall (V : Type) where
  | insert (v : V)
  | inserts (vs : List V)
  | remove (v : V)
  | min
  | max

/-- What a call answers. -/
inductive TreeReply (V : Type) where
  | done
  | found (b : Bool)
  | value (v : Option V)
  deriving DecidableEq

/-- One call on the memory. -/
def TreeCall.exec {V : Type} (cmp : V → V → Go Int) (fuel : Nat) (s : St V) : TreeCall V → Run (TreeReply V × St V)
  | .insert v => do
    let s ← Insert cmp fuel s v
    pure (.done, s)
  | .inserts vs => do
    let s ← Inserts cmp fuel s vs
    pure (.done, s)
  | .remove v => do
    let (b, s) ← Remove cmp fuel s v
    pure (.found b, s)
  | .min => do
    let m ← Min fuel s
    pure (.value m, s)
  | .max => do
    let m ← Max fuel s
    pure (.value m, s)

/-- A history of calls. -/
def execAll {V : Type} (cmp : V → V → Go Int) (fuel : Nat) (s : St V) : List (TreeCall V) → Run (List (TreeReply V) × St V)
  | [] => pure ([], s)
  | c :: cs => do
    let (r, s) ← c.exec cmp fuel s
    let (rs, s) ← execAll cmp fuel s cs
    pure (r :: rs, s)

/-- Specification: the answer a call must give on the bag of keys, and the bag afterwards. -/
def TreeCall.Obeys {V L : Type} [LinearOrder L] (key : V → L) (bag : Multiset L) : TreeCall V → TreeReply V → Multiset L → Prop
  | .insert v, r, bag' => r = .done ∧ bag' = key v ::ₘ bag
  | .inserts vs, r, bag' => r = .done ∧ bag' = (vs.map key : Multiset L) + bag
  | .remove v, r, bag' => r = .found (decide (key v ∈ bag)) ∧ bag' = bag.erase (key v)
  | .min, r, bag' => bag' = bag ∧ ∃ m, r = .value m ∧ (m = none ↔ bag = 0) ∧ ∀ v, m = some v → key v ∈ bag ∧ ∀ k ∈ bag, key v ≤ k
  | .max, r, bag' => bag' = bag ∧ ∃ m, r = .value m ∧ (m = none ↔ bag = 0) ∧ ∀ v, m = some v → key v ∈ bag ∧ ∀ k ∈ bag, k ≤ key v

/-- Specification of a history. -/
def Follows {V L : Type} [LinearOrder L] (key : V → L) : Multiset L → List (TreeCall V) → List (TreeReply V) → Prop
  | _, [], rs => rs = []
  | bag, c :: cs, rs => ∃ r bag' rs', rs = r :: rs' ∧ c.Obeys key bag r bag' ∧ Follows key bag' cs rs'

/-- The values a call mentions. -/
def TreeCall.values {V : Type} : TreeCall V → List V
  | .insert v => [v]
  | .inserts vs => vs
  | .remove v => [v]
  | _ => []

/-- The number of insertions. -/
def insertions {V : Type} : List (TreeCall V) → Nat
  | [] => 0
  | .insert _ :: cs => insertions cs + 1
  | .inserts vs :: cs => insertions cs + vs.length
  | _ :: cs => insertions cs

theorem remove_length_le {V : Type} (cmp : V → V → Int) (x : V) (t : Bst V) :
    (t.remove cmp x).2.toList.length ≤ t.toList.length := by
  induction t with
  | nil => simp [Bst.remove]
  | node l v r ihl ihr =>
    simp only [Bst.remove]
    split
    · rw [Bst.toList_removeNode]; simp [Bst.toList]
    · split
      · simp only [Bst.toList, List.length_append, List.length_cons]; omega
      · simp only [Bst.toList, List.length_append, List.length_cons]; omega

theorem mem_of_mem_remove {V : Type} {cmp : V → V → Int} {x w : V} {t : Bst V} (h : w ∈ (t.remove cmp x).2.toList) :
    w ∈ t.toList := by
  induction t with
  | nil => simpa [Bst.remove] using h
  | node l v r ihl ihr =>
    simp only [Bst.remove] at h
    simp only [Bst.toList, List.mem_append, List.mem_cons]
    split at h
    · rw [Bst.toList_removeNode, List.mem_append] at h
      tauto
    · split at h
      · simp only [Bst.toList, List.mem_append, List.mem_cons] at h
        rcases h with h | h | h
        · exact .inl (ihl h)
        · exact .inr (.inl h)
        · exact .inr (.inr h)
      · simp only [Bst.toList, List.mem_append, List.mem_cons] at h
        rcases h with h | h | h
        · exact .inl h
        · exact .inr (.inl h)
        · exact .inr (.inr (ihr h))

theorem cmpKey_three {V L : Type} {cmp : V → V → Int} [LinearOrder L] (k : CmpKey cmp L) {a b : V} (ha : k.good a) (hb : k.good b) :
    cmp a b = 0 ∨ cmp a b = -1 ∨ cmp a b = 1 := by
  rw [k.cmp_eq ha hb]
  split
  · exact .inr (.inl rfl)
  · split
    · exact .inr (.inr rfl)
    · exact .inl rfl

/-- `Inserts` inserts every value, one after the other. -/
theorem Inserts_spec {V : Type} {cmp : V → V → Go Int} {c : V → V → Int} (P : V → Prop)
    (hc : ∀ a b, P a → P b → cmp a b = .ok (c a b)) (vs : List V) :
    ∀ (s : St V) (f : Bst V) (fuel : Nat), Models s f → (∀ w ∈ f.toList, P w) → (∀ v ∈ vs, P v) → f.toList.length + vs.length ≤ fuel →
      ∃ s', Inserts cmp fuel s vs = pure s' ∧ Models s' (vs.foldl (fun f v => f.insert c v) f) ∧
        (∀ w ∈ (vs.foldl (fun f v => f.insert c v) f).toList, P w) ∧
        (vs.foldl (fun f v => f.insert c v) f).toList.length = f.toList.length + vs.length := by
  induction vs with
  | nil => intro s f fuel hm hi _ _; exact ⟨s, rfl, hm, hi, rfl⟩
  | cons v vs ih =>
    intro s f fuel hm hi hv hf
    rw [List.length_cons] at hf
    have hgv := hv v List.mem_cons_self
    obtain ⟨s1, h1, h2⟩ := Insert_spec (c := c) (x := v) (fuel := fuel) hm (by omega) (fun w hw => hc v w hgv (hi w hw))
    obtain ⟨s', h3, h4, h5, h6⟩ := ih s1 (f.insert c v) fuel h2
      (fun w hw => by
        rcases List.mem_cons.mp ((Bst.toList_insert_perm c v f).mem_iff.mp hw) with rfl | hw
        · exact hgv
        · exact hi w hw) (fun w hw => hv w (List.mem_cons_of_mem _ hw)) (by rw [Bst.length_insert]; omega)
    refine ⟨s', ?_, h4, h5, ?_⟩
    · simp only [Inserts, h1, pure_bind', h3]
    · rw [List.foldl_cons, h6, Bst.length_insert, List.length_cons]; omega

theorem foldl_insert_inv {V L : Type} [LinearOrder L] {c : V → V → Int} (k : CmpKey c L) (vs : List V) :
    ∀ f : Bst V, Bst.Inv k f → (∀ v ∈ vs, k.good v) → Bst.Inv k (vs.foldl (fun f v => f.insert c v) f) ∧
      (vs.foldl (fun f v => f.insert c v) f).keys k = (vs.map k.key : Multiset L) + f.keys k := by
  induction vs with
  | nil => intro f hi _; exact ⟨hi, by simp⟩
  | cons v vs ih =>
    intro f hi hv
    obtain ⟨h1, h2⟩ := ih (f.insert c v) (hi.insert (hv v List.mem_cons_self)) (fun w hw => hv w (List.mem_cons_of_mem _ hw))
    refine ⟨h1, ?_⟩
    rw [List.foldl_cons, h2, Bst.keys_insert, List.map_cons, ← Multiset.cons_coe, Multiset.add_cons, Multiset.cons_add]

/-- The general form: any values on which the dynamic comparison succeeds and is a linear order of keys. -/
theorem execAll_spec {V L : Type} [LinearOrder L] {cmp : V → V → Go Int} {c : V → V → Int} (k : CmpKey c L)
    (hc : ∀ a b, k.good a → k.good b → cmp a b = .ok (c a b)) (cs : List (TreeCall V)) :
    ∀ (s : St V) (f : Bst V) (fuel : Nat), Models s f → Bst.Inv k f → (∀ op ∈ cs, ∀ v ∈ op.values, k.good v) →
      f.toList.length + insertions cs ≤ fuel →
      ∃ rs s', execAll cmp fuel s cs = pure (rs, s') ∧ Follows k.key (f.keys k) cs rs := by
  induction cs with
  | nil => intro s f fuel _ _ _ _; exact ⟨[], s, rfl, rfl⟩
  | cons op cs ih =>
    intro s f fuel hm hi hg hf
    have hg' : ∀ op ∈ cs, ∀ v ∈ op.values, k.good v := fun o ho => hg o (List.mem_cons_of_mem _ ho)
    have hv : ∀ v ∈ op.values, k.good v := hg op List.mem_cons_self
    cases op with
    | insert v =>
      have hgv := hv v (by simp [TreeCall.values])
      obtain ⟨s1, h1, h2⟩ := Insert_spec (c := c) (x := v) (fuel := fuel) hm (by simp [insertions] at hf; omega)
        (fun w hw => hc v w hgv (hi.1 w hw))
      obtain ⟨rs, s', h3, h4⟩ := ih s1 (f.insert c v) fuel h2 (hi.insert hgv) hg'
        (by rw [Bst.length_insert]; simp only [insertions] at hf; omega)
      refine ⟨.done :: rs, s', ?_, .done, _, rs, rfl, ⟨rfl, rfl⟩, ?_⟩
      · simp only [execAll, TreeCall.exec, h1, pure_bind', h3]
      · rw [Bst.keys_insert] at h4; exact h4
    | inserts vs =>
      have hgv : ∀ v ∈ vs, k.good v := fun v hv' => hv v (by simpa [TreeCall.values] using hv')
      obtain ⟨s1, h1, h2, -, h6⟩ := Inserts_spec (cmp := cmp) (c := c) k.good hc vs s f fuel hm hi.1 hgv
        (by simp only [insertions] at hf; omega)
      obtain ⟨i1, i2⟩ := foldl_insert_inv k vs f hi hgv
      obtain ⟨rs, s', h3, h4⟩ := ih s1 _ fuel h2 i1 hg' (by rw [h6]; simp only [insertions] at hf; omega)
      refine ⟨.done :: rs, s', ?_, .done, _, rs, rfl, ⟨rfl, rfl⟩, ?_⟩
      · simp only [execAll, TreeCall.exec, h1, pure_bind', h3]
      · rw [i2] at h4; exact h4
    | remove v =>
      have hgv := hv v (by simp [TreeCall.values])
      obtain ⟨s1, h1, h2⟩ := Remove_spec (c := c) (x := v) (fuel := fuel) hm (by omega)
        (fun w hw => ⟨hc v w hgv (hi.1 w hw), cmpKey_three k hgv (hi.1 w hw)⟩)
      obtain ⟨rs, s', h3, h4⟩ := ih s1 (f.remove c v).2 fuel h2 (hi.remove hgv) hg'
        (by have := remove_length_le c v f; simp only [insertions] at hf; omega)
      obtain ⟨e1, e2⟩ := Bst.keys_remove hi hgv
      refine ⟨.found (f.remove c v).1 :: rs, s', ?_, _, _, rs, rfl, ⟨?_, rfl⟩, ?_⟩
      · simp only [execAll, TreeCall.exec, h1, pure_bind', h3]
      · congr 1
        rw [Bool.eq_iff_iff, e2, decide_eq_true_iff]
      · rw [e1] at h4; exact h4
    | min =>
      have h1 := Min_spec (fuel := fuel) hm (by omega)
      obtain ⟨rs, s', h3, h4⟩ := ih s f fuel hm hi hg' (by simpa [insertions] using hf)
      refine ⟨.value f.min :: rs, s', ?_, _, _, rs, rfl, ⟨rfl, _, rfl, (Bst.min_spec hi).1, fun v hv => ?_⟩, h4⟩
      · simp only [execAll, TreeCall.exec, h1, pure_bind', h3]
      · obtain ⟨_, h5, h6⟩ := (Bst.min_spec hi).2 v hv
        exact ⟨Multiset.mem_coe.mpr (List.mem_map.mpr ⟨v, h5, rfl⟩), h6⟩
    | max =>
      have h1 := Max_spec (fuel := fuel) hm (by omega)
      obtain ⟨rs, s', h3, h4⟩ := ih s f fuel hm hi hg' (by simpa [insertions] using hf)
      refine ⟨.value f.max :: rs, s', ?_, _, _, rs, rfl, ⟨rfl, _, rfl, (Bst.max_spec hi).1, fun v hv => ?_⟩, h4⟩
      · simp only [execAll, TreeCall.exec, h1, pure_bind', h3]
      · obtain ⟨_, h5, h6⟩ := (Bst.max_spec hi).2 v hv
        exact ⟨Multiset.mem_coe.mpr (List.mem_map.mpr ⟨v, h5, rfl⟩), h6⟩

/-- The comparison of two values of the same kind. -/
def sameKind : Dyn F → Dyn F → Int
  | .f64 a, .f64 b => compareFloat64 a b
  | .i64 a, .i64 b => compareInt64 a b
  | _, _ => 0

/-- Ordered float64 values behind `interface{}`. -/
def dynFloat {L : Type} [LinearOrder L] (o : OrdKey F L) (z : L) : CmpKey (sameKind (F := F)) L where
  good v := ∃ x, v = .f64 x ∧ o.good x
  key v := match v with | .f64 x => o.key x | _ => z
  cmp_eq := by
    rintro a b ⟨x, rfl, hx⟩ ⟨y, rfl, hy⟩
    exact (cmpFloat o).cmp_eq hx hy

/-- int64 values behind `interface{}`. -/
def dynInt : CmpKey (sameKind (F := F)) Int where
  good v := ∃ x, v = .i64 x
  key v := match v with | .i64 x => x | _ => 0
  cmp_eq := by
    rintro a b ⟨x, rfl⟩ ⟨y, rfl⟩
    exact cmpInt.cmp_eq trivial trivial

/-- **C98.** Any history of `Insert`, `Inserts`, `Remove`, `Min` and `Max` calls on a new tree, at the level of nodes and pointers, with
float64 values that are no NaN: with a budget of as many loop rounds per loop as there are insertions, no call panics
or runs out of rounds, and every answer is the one the bag of values gives (`Follows`): `Remove` tells whether an equal
value is stored and takes out one, `Min`/`Max` return a least/greatest value, nil exactly on the empty bag. -/
theorem C98_pointer_tree {L : Type} [LinearOrder L] (o : OrdKey F L) (z : L) (cs : List (TreeCall (Dyn F)))
    (hg : ∀ op ∈ cs, ∀ v ∈ op.values, ∃ x, v = .f64 x ∧ o.good x) (fuel : Nat) (hf : insertions cs ≤ fuel) :
    ∃ rs s', execAll Compare fuel New cs = pure (rs, s') ∧
      Follows (fun v => match v with | .f64 x => o.key x | _ => z) 0 cs rs := by
  have := execAll_spec (dynFloat o z) (cmp := Compare) (by rintro a b ⟨x, rfl, -⟩ ⟨y, rfl, -⟩; rfl) cs New .nil fuel models_new
    (Bst.Inv.nil _) hg (by simpa [Bst.toList] using hf)
  exact this

/-- **C98** for int64 values. -/
theorem C98_pointer_tree_int (cs : List (TreeCall (Dyn F))) (hg : ∀ op ∈ cs, ∀ v ∈ op.values, ∃ x, v = .i64 x) (fuel : Nat)
    (hf : insertions cs ≤ fuel) :
    ∃ rs s', execAll Compare fuel New cs = pure (rs, s') ∧
      Follows (fun v => match v with | .i64 x => x | _ => 0) 0 cs rs :=
  execAll_spec dynInt (cmp := Compare) (by rintro a b ⟨x, rfl⟩ ⟨y, rfl⟩; rfl) cs New .nil fuel models_new
    (Bst.Inv.nil _) hg (by simpa [Bst.toList] using hf)

/-- **C98**, mixed values. On any tree that is not empty, `Insert` and `Remove` of a value of another kind than the root's
panic: with a failed type assertion, or "not comparable" when the new value is neither float64 nor int64 (then even if
the root is of the same type). -/
theorem C98_mixed_kinds {s : St (Dyn F)} {a : Nat} {n : Node (Dyn F)} (hr : s.root = some a) (ha : s.mem a = some n)
    (hlt : a < s.next) (v : Dyn F) (fuel : Nat) (e : Panic) (hv : Compare v n.value = .error e) :
    Insert Compare (fuel + 1) s v = panic e ∧ Remove Compare (fuel + 1) s v = panic e := by
  constructor
  · simp only [Ptr.Insert, hr, insertLoop]
    rw [load_some (n := ⟨v, none, none⟩) (by simp), pure_bind',
      load_some (n := n) (by simp only; rw [Function.update_of_ne (by omega)]; exact ha), pure_bind', hv]
    rfl
  · simp only [Remove, hr, removeLoop]
    rw [load_some ha, pure_bind', hv]
    rfl

/-- The hypothesis of `C98_mixed_kinds` says exactly that the kinds differ or the new value has no order. -/
theorem C98_compare_fails (v w : Dyn F) :
    (∃ e, Compare v w = .error e) ↔ (v = .other ∨ ¬ ((∃ x y, v = .f64 x ∧ w = .f64 y) ∨ ∃ x y, v = .i64 x ∧ w = .i64 y)) := by
  cases v <;> cases w <;> simp [Compare]

/-- **C98**, NaN: with any float64 values at all, NaN included, no history panics or runs for ever. -/
theorem C98_any_floats (cs : List (TreeCall (Dyn F))) (hg : ∀ op ∈ cs, ∀ v ∈ op.values, ∃ x, v = .f64 x) (fuel : Nat)
    (hf : insertions cs ≤ fuel) : ∃ rs s', execAll Compare fuel New cs = pure (rs, s') := by
  have three : ∀ x y : F, compareFloat64 x y = 0 ∨ compareFloat64 x y = -1 ∨ compareFloat64 x y = 1 := by
    intro x y
    unfold compareFloat64
    split
    · exact .inr (.inl rfl)
    · split
      · exact .inr (.inr rfl)
      · exact .inl rfl
  have hc : ∀ v w : Dyn F, (∃ x, v = .f64 x) → (∃ x, w = .f64 x) →
      Compare v w = .ok (sameKind v w) ∧ (sameKind v w = 0 ∨ sameKind v w = -1 ∨ sameKind v w = 1) := by
    rintro v w ⟨x, rfl⟩ ⟨y, rfl⟩
    exact ⟨rfl, three x y⟩
  suffices h : ∀ (cs : List (TreeCall (Dyn F))) (s : St (Dyn F)) (f : Bst (Dyn F)), Models s f →
      (∀ v ∈ f.toList, ∃ x, v = .f64 x) → (∀ op ∈ cs, ∀ v ∈ op.values, ∃ x, v = .f64 x) →
      f.toList.length + insertions cs ≤ fuel → ∃ rs s', execAll Compare fuel s cs = pure (rs, s') from
    h cs New .nil models_new (by simp [Bst.toList]) hg (by simpa [Bst.toList] using hf)
  intro cs
  induction cs with
  | nil => intro s f _ _ _ _; exact ⟨[], s, rfl⟩
  | cons op cs ih =>
    intro s f hm hi hg hf
    have hg' : ∀ op ∈ cs, ∀ v ∈ op.values, ∃ x, v = .f64 x := fun o ho => hg o (List.mem_cons_of_mem _ ho)
    have hv : ∀ v ∈ op.values, ∃ x, v = .f64 x := hg op List.mem_cons_self
    cases op with
    | insert v =>
      have hgv := hv v (by simp [TreeCall.values])
      obtain ⟨s1, h1, h2⟩ := Insert_spec (c := sameKind) (x := v) (fuel := fuel) hm (by simp [insertions] at hf; omega)
        (fun w hw => (hc v w hgv (hi w hw)).1)
      obtain ⟨rs, s', h3⟩ := ih s1 (f.insert sameKind v) h2
        (fun w hw => by
          rcases List.mem_cons.mp ((Bst.toList_insert_perm sameKind v f).mem_iff.mp hw) with rfl | hw
          · exact hgv
          · exact hi w hw) hg'
        (by rw [Bst.length_insert]; simp only [insertions] at hf; omega)
      exact ⟨.done :: rs, s', by simp only [execAll, TreeCall.exec, h1, pure_bind', h3]⟩
    | inserts vs =>
      obtain ⟨s1, h1, h2, h5, h6⟩ := Inserts_spec (cmp := Compare) (c := sameKind) (fun v => ∃ x, v = .f64 x) (fun a b ha hb => (hc a b ha hb).1)
        vs s f fuel hm hi (fun v hv' => hv v (by simpa [TreeCall.values] using hv')) (by simp only [insertions] at hf; omega)
      obtain ⟨rs, s', h3⟩ := ih s1 _ h2 h5 hg' (by rw [h6]; simp only [insertions] at hf; omega)
      exact ⟨.done :: rs, s', by simp only [execAll, TreeCall.exec, h1, pure_bind', h3]⟩
    | remove v =>
      have hgv := hv v (by simp [TreeCall.values])
      obtain ⟨s1, h1, h2⟩ := Remove_spec (c := sameKind) (x := v) (fuel := fuel) hm (by omega)
        (fun w hw => hc v w hgv (hi w hw))
      obtain ⟨rs, s', h3⟩ := ih s1 (f.remove sameKind v).2 h2 (fun w hw => hi w (mem_of_mem_remove hw)) hg'
        (by have := remove_length_le sameKind v f; simp only [insertions] at hf; omega)
      exact ⟨.found (f.remove sameKind v).1 :: rs, s', by simp only [execAll, TreeCall.exec, h1, pure_bind', h3]⟩
    | min =>
      obtain ⟨rs, s', h3⟩ := ih s f hm hi hg' (by simpa [insertions] using hf)
      exact ⟨.value f.min :: rs, s', by
        simp only [execAll, TreeCall.exec, Min_spec (fuel := fuel) hm (by omega), pure_bind', h3]⟩
    | max =>
      obtain ⟨rs, s', h3⟩ := ih s f hm hi hg' (by simpa [insertions] using hf)
      exact ⟨.value f.max :: rs, s', by
        simp only [execAll, TreeCall.exec, Max_spec (fuel := fuel) hm (by omega), pure_bind', h3]⟩

/-- A history with duplicates, the removal of a node with two children and of a missing value. -/
example : ∃ s', execAll (V := Dyn (XF ℚ)) Compare 5 New [.insert (.i64 5), .inserts [.i64 3, .i64 8, .i64 3],
    .insert (.i64 6), .remove (.i64 5), .remove (.i64 5), .min, .max] =
      (pure ([.done, .done, .done, .found true, .found false, .value (some (.i64 3)), .value (some (.i64 8))], s') :
        Run (List (TreeReply (Dyn (XF ℚ))) × St (Dyn (XF ℚ)))) := ⟨_, rfl⟩

end Verif.Props
