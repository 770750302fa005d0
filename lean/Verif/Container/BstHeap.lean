import Verif.Container.Bst
import Verif.Go.Basic
import Mathlib.Logic.Function.Basic
import Mathlib.Data.List.Nodup
import Mathlib.Data.List.Perm.Basic

/-!
# The search tree with its pointers

`Verif/Container/Bst.lean` models `container/bst/bst.go` as functions on an inductive tree. This file models the same code with
nodes in a memory, the loops with their `parent` variables and the assignments to fields, and proves that every operation
does on the memory what the function does on the tree.

A loop may in principle run for ever, so every loop has a budget of rounds; `none` means that the budget is used up. The
theorems show that the number of stored values is always enough.
-/

namespace Verif.Container.Ptr
open Verif Verif.Container

variable {V : Type}

/-- Models container/bst/bst.go:8-12 `Node`; an address is a natural number, nil is `none`. -/
structure Node (V : Type) where
  value : V
  left : Option Nat
  right : Option Nat

/-- The memory, the next unused address, and `t.root` (container/bst/bst.go:15-17 `Tree`). -/
structure St (V : Type) where
  mem : Nat → Option (Node V)
  next : Nat
  root : Option Nat

/-- A computation that may use up its budget (`none`), panic or return. -/
abbrev Run := ExceptT Panic Option

/-- A panic. -/
def panic {α : Type} (p : Panic) : Run α := some (.error p)
/-- The budget is used up. -/
def running {α : Type} : Run α := (none : Option (Except Panic α))
/-- The outcome of a call that cannot loop. -/
def ofGo {α : Type} (g : Go α) : Run α := some g

@[simp] theorem pure_bind' {α β : Type} (a : α) (f : α → Run β) : ((pure a : Run α) >>= f) = f a := rfl
@[simp] theorem ofGo_ok {α : Type} (a : α) : (ofGo (.ok a) : Run α) = pure a := rfl
@[simp] theorem ofGo_error {α : Type} (p : Panic) : (ofGo (.error p) : Run α) = panic p := rfl
@[simp] theorem panic_bind {α β : Type} (p : Panic) (f : α → Run β) : ((panic p : Run α) >>= f) = panic p := rfl

/-- `*p`. Simplification: an address without a node (impossible in Go) counts as nil. -/
def load (s : St V) (p : Option Nat) : Run (Node V) :=
  match p with
  | none => panic .nilDeref
  | some a => match s.mem a with
    | none => panic .nilDeref
    | some n => pure n

/-- `n.left = p` for the node `n` at address `a`. -/
def setLeft (s : St V) (a : Nat) (p : Option Nat) : St V :=
  { s with mem := Function.update s.mem a ((s.mem a).map fun n => { n with left := p }) }
/-- `n.right = p`. -/
def setRight (s : St V) (a : Nat) (p : Option Nat) : St V :=
  { s with mem := Function.update s.mem a ((s.mem a).map fun n => { n with right := p }) }
/-- `n.value = v`. -/
def setValue (s : St V) (a : Nat) (v : V) : St V :=
  { s with mem := Function.update s.mem a ((s.mem a).map fun n => { n with value := v }) }

/-- Models container/bst/bst.go:20-22 `New`. -/
def New : St V := { mem := fun _ => none, next := 0, root := none }

/-- The loop of `Insert`, container/bst/bst.go:43-60. -/
def insertLoop (cmp : V → V → Go Int) : Nat → St V → Nat → Nat → Run (St V)
  | 0, _, _, _ => running
  | fuel + 1, s, new, cur => do
    let nn ← load s (some new)
    let c ← load s (some cur)
    let k ← ofGo (cmp nn.value c.value)
    if k ≤ 0 then
      match c.left with
      | none => pure (setLeft s cur (some new))
      | some l => insertLoop cmp fuel s new l
    else
      match c.right with
      | none => pure (setRight s cur (some new))
      | some r => insertLoop cmp fuel s new r

/-- Models container/bst/bst.go:32-61 `Insert`. -/
def Insert (cmp : V → V → Go Int) (fuel : Nat) (s : St V) (value : V) : Run (St V) :=
  let new := s.next
  let s := { s with mem := Function.update s.mem new (some ⟨value, none, none⟩), next := new + 1 }
  match s.root with
  | none => pure { s with root := some new }
  | some r => insertLoop cmp fuel s new r

/-- Models container/bst/bst.go:24-29 `Inserts`. -/
def Inserts (cmp : V → V → Go Int) (fuel : Nat) (s : St V) : List V → Run (St V)
  | [] => pure s
  | v :: vs => do
    let s ← Insert cmp fuel s v
    Inserts cmp fuel s vs

/-- The loop of container/bst/bst.go:136-150 `minNode`: the node and its parent. -/
def minLoop : Nat → St V → Option Nat → Nat → Run (Nat × Option Nat)
  | 0, _, _, _ => running
  | fuel + 1, s, parent, node => do
    let n ← load s (some node)
    match n.left with
    | none => pure (node, parent)
    | some l => minLoop fuel s (some node) l

/-- The loop of container/bst/bst.go:153-167 `maxNode`. -/
def maxLoop : Nat → St V → Option Nat → Nat → Run (Nat × Option Nat)
  | 0, _, _, _ => running
  | fuel + 1, s, parent, node => do
    let n ← load s (some node)
    match n.right with
    | none => pure (node, parent)
    | some r => maxLoop fuel s (some node) r

/-- Models container/bst/bst.go:88-95 `Min`. -/
def Min (fuel : Nat) (s : St V) : Run (Option V) :=
  match s.root with
  | none => pure none
  | some r => do
    let (node, _) ← minLoop fuel s none r
    let n ← load s (some node)
    pure (some n.value)

/-- Models container/bst/bst.go:98-105 `Max`. -/
def Max (fuel : Nat) (s : St V) : Run (Option V) :=
  match s.root with
  | none => pure none
  | some r => do
    let (node, _) ← maxLoop fuel s none r
    let n ← load s (some node)
    pure (some n.value)

/-- The `else` branch of `removeNode`, container/bst/bst.go:118-131. -/
def unlink (s : St V) (parent : Option Nat) (node : Nat) (n : Node V) : Run (St V) :=
  let child := if n.left ≠ none then n.left else n.right
  if some node = s.root then pure { s with root := child }
  else
    match parent with
    | none => panic .nilDeref
    | some p => do
      let pn ← load s (some p)
      if pn.left = some node then pure (setLeft s p child) else pure (setRight s p child)

/-- Models container/bst/bst.go:108-133 `removeNode`. -/
def removeNode : Nat → St V → Option Nat → Nat → Run (St V)
  | 0, _, _, _ => running
  | fuel + 1, s, parent, node => do
    let n ← load s (some node)
    match n.left, n.right with
    | some _, some r => do
      let (min, minParent) ← minLoop fuel s none r
      let minParent := match minParent with
        | none => node
        | some p => p
      let s ← removeNode fuel s (some minParent) min
      let m ← load s (some min)
      pure (setValue s node m.value)
    | _, _ => unlink s parent node n

/-- The loop of `Remove`, container/bst/bst.go:68-82. A comparison other than -1, 0, 1 repeats the round. -/
def removeLoop (cmp : V → V → Go Int) : Nat → St V → V → Option Nat → Option Nat → Run (Bool × St V)
  | _, s, _, _, none => pure (false, s)
  | 0, _, _, _, some _ => running
  | fuel + 1, s, x, parent, some a => do
    let n ← load s (some a)
    let k ← ofGo (cmp x n.value)
    if k = 0 then do
      let s ← removeNode (fuel + 1) s parent a
      pure (true, s)
    else if k = -1 then removeLoop cmp fuel s x (some a) n.left
    else if k = 1 then removeLoop cmp fuel s x (some a) n.right
    else removeLoop cmp fuel s x parent (some a)

/-- Models container/bst/bst.go:64-85 `Remove`. -/
def Remove (cmp : V → V → Go Int) (fuel : Nat) (s : St V) (x : V) : Run (Bool × St V) :=
  removeLoop cmp fuel s x none s.root

/-! ## Trees with addresses -/

/-- A tree that remembers where its nodes are. -/
inductive ATree (V : Type) where
  | nil
  | node (a : Nat) (l : ATree V) (v : V) (r : ATree V)

namespace ATree

/-- The pointer to the root. -/
def ptr : ATree V → Option Nat
  | nil => none
  | node a _ _ _ => some a

/-- The addresses in use. -/
def addrs : ATree V → List Nat
  | nil => []
  | node a l _ r => a :: (l.addrs ++ r.addrs)

/-- The tree without addresses. -/
def erase : ATree V → Bst V
  | nil => .nil
  | node _ l v r => .node l.erase v r.erase

/-- The memory holds the tree. -/
def Holds (m : Nat → Option (Node V)) : ATree V → Prop
  | nil => True
  | node a l v r => m a = some ⟨v, l.ptr, r.ptr⟩ ∧ Holds m l ∧ Holds m r

theorem ptr_nil : (nil : ATree V).ptr = none := rfl
theorem ptr_node (a : Nat) (l : ATree V) (v : V) (r : ATree V) : (node a l v r).ptr = some a := rfl

theorem ptr_none {t : ATree V} : t.ptr = none ↔ t = nil := by
  cases t <;> simp [ptr]

theorem ptr_mem {t : ATree V} {a : Nat} (h : t.ptr = some a) : a ∈ t.addrs := by
  cases t with
  | nil => cases h
  | node b l v r => cases h; simp [addrs]

theorem holds_congr {m m' : Nat → Option (Node V)} : ∀ {t : ATree V}, (∀ a ∈ t.addrs, m' a = m a) → Holds m t → Holds m' t
  | nil, _, _ => trivial
  | node a l v r, he, h =>
    ⟨(he a (by simp [addrs])).trans h.1, holds_congr (fun b hb => he b (by simp [addrs, hb])) h.2.1,
      holds_congr (fun b hb => he b (by simp [addrs, hb])) h.2.2⟩

theorem holds_update {m : Nat → Option (Node V)} {t : ATree V} {a : Nat} {x : Option (Node V)} (ha : a ∉ t.addrs) (h : Holds m t) :
    Holds (Function.update m a x) t :=
  holds_congr (fun b hb => Function.update_of_ne (fun e : b = a => ha (by rw [← e]; exact hb)) _ _) h

theorem addrs_length (t : ATree V) : t.addrs.length = t.erase.toList.length := by
  induction t with
  | nil => rfl
  | node a l v r ihl ihr => simp [addrs, erase, Bst.toList, ihl, ihr]; omega

/-- What nodup says at a node. -/
theorem nodup_node {a : Nat} {l r : ATree V} {v : V} (h : (node a l v r).addrs.Nodup) :
    a ∉ l.addrs ∧ a ∉ r.addrs ∧ l.addrs.Nodup ∧ r.addrs.Nodup ∧ ∀ b ∈ l.addrs, b ∉ r.addrs := by
  simp only [addrs, List.nodup_cons, List.mem_append, List.nodup_append, not_or] at h
  obtain ⟨⟨h1, h2⟩, h3, h4, h5⟩ := h
  exact ⟨h1, h2, h3, h4, fun b hb hb' => h5 b hb b hb' rfl⟩

theorem nodup_mk {a : Nat} {l r : ATree V} {v : V} (h1 : a ∉ l.addrs) (h2 : a ∉ r.addrs) (h3 : l.addrs.Nodup)
    (h4 : r.addrs.Nodup) (h5 : ∀ b ∈ l.addrs, b ∉ r.addrs) : (node a l v r).addrs.Nodup := by
  simp only [addrs, List.nodup_cons, List.mem_append, List.nodup_append, not_or]
  exact ⟨⟨h1, h2⟩, h3, h4, fun b hb c hc e => h5 b hb (e ▸ hc)⟩

end ATree

open ATree

theorem load_some {s : St V} {a : Nat} {n : Node V} (h : s.mem a = some n) : load s (some a) = pure n := by
  simp only [load, h]

theorem setLeft_eq {s : St V} {a : Nat} {n : Node V} {p : Option Nat} (h : s.mem a = some n) :
    setLeft s a p = { s with mem := Function.update s.mem a (some { n with left := p }) } := by
  simp only [setLeft, h, Option.map_some]

theorem setRight_eq {s : St V} {a : Nat} {n : Node V} {p : Option Nat} (h : s.mem a = some n) :
    setRight s a p = { s with mem := Function.update s.mem a (some { n with right := p }) } := by
  simp only [setRight, h, Option.map_some]

theorem setValue_eq {s : St V} {a : Nat} {n : Node V} {x : V} (h : s.mem a = some n) :
    setValue s a x = { s with mem := Function.update s.mem a (some { n with value := x }) } := by
  simp only [setValue, h, Option.map_some]

/-! ## Insert -/

theorem insertLoop_spec {cmp : V → V → Go Int} {c : V → V → Int} {x : V} :
    ∀ (t : ATree V) (fuel : Nat) (s : St V) (new a : Nat), t.ptr = some a → Holds s.mem t → t.addrs.Nodup →
      s.mem new = some ⟨x, none, none⟩ → new ∉ t.addrs → t.addrs.length ≤ fuel →
      (∀ v ∈ t.erase.toList, cmp x v = .ok (c x v)) →
      ∃ m' t', insertLoop cmp fuel s new a = pure { s with mem := m' } ∧ Holds m' t' ∧ t'.erase = t.erase.insert c x ∧
        t'.ptr = t.ptr ∧ t'.addrs.Nodup ∧ (∀ b, b ∈ t'.addrs ↔ b = new ∨ b ∈ t.addrs) ∧ ∀ b, b ∉ t.addrs → m' b = s.mem b := by
  intro t
  induction t with
  | nil => intro fuel s new a h; cases h
  | node b l v r ihl ihr =>
    intro fuel s new a hp hh hn hnew hfresh hf hcmp
    cases hp
    obtain ⟨hm, hl, hr⟩ := hh
    obtain ⟨n1, n2, n3, n4, n5⟩ := nodup_node hn
    simp only [addrs, List.mem_cons, List.mem_append, not_or] at hfresh
    simp only [addrs, List.length_cons, List.length_append] at hf
    obtain ⟨fuel, rfl⟩ : ∃ f, fuel = f + 1 := ⟨fuel - 1, by omega⟩
    have hv := hcmp v (by simp [erase, Bst.toList])
    have hcl : ∀ w ∈ l.erase.toList, cmp x w = .ok (c x w) := fun w hw => hcmp w (by simp [erase, Bst.toList, hw])
    have hcr : ∀ w ∈ r.erase.toList, cmp x w = .ok (c x w) := fun w hw => hcmp w (by simp [erase, Bst.toList, hw])
    rw [insertLoop]
    simp only [load_some hnew, load_some hm, pure_bind', hv, ofGo_ok]
    have hnb : new ≠ b := hfresh.1
    by_cases hk : c x v ≤ 0
    · rw [if_pos hk]
      rcases hlp : l.ptr with _ | la
      · have hl0 := ptr_none.mp hlp
        subst hl0
        refine ⟨_, node b (node new nil x nil) v r, by rw [setLeft_eq hm], ⟨by simp [ptr], ⟨?_, trivial, trivial⟩, ?_⟩, ?_, rfl,
          ?_, ?_, ?_⟩
        · rw [Function.update_of_ne hnb]; exact hnew
        · exact holds_update n2 hr
        · simp [erase, Bst.insert, hk]
        · refine nodup_mk ?_ n2 (by simp [addrs]) n4 ?_
          · simpa [addrs] using hnb.symm
          · intro b' hb'
            simp only [addrs, List.append_nil, List.mem_singleton] at hb'
            subst hb'
            exact hfresh.2.2
        · intro b'; simp [addrs]; tauto
        · intro b' hb'
          simp only [addrs, List.mem_cons, not_or] at hb'
          exact Function.update_of_ne hb'.1 _ _
      · obtain ⟨m', t', h1, h2, h3, h4, h5, h6, h7⟩ := ihl fuel s new la hlp hl n3 hnew hfresh.2.1 (by omega) hcl
        refine ⟨m', node b t' v r, h1, ⟨?_, h2, ?_⟩, ?_, rfl, ?_, ?_, ?_⟩
        · rw [h7 b n1, hm, h4]
        · exact holds_congr (fun b' hb' => h7 b' fun e => n5 b' e hb') hr
        · simp [erase, Bst.insert, hk, h3]
        · refine nodup_mk ?_ n2 h5 n4 ?_
          · rw [h6]; exact fun e => e.elim (fun e => hnb e.symm) n1
          · intro b' hb'
            rcases (h6 b').mp hb' with rfl | hb'
            · exact hfresh.2.2
            · exact n5 b' hb'
        · intro b'; simp only [addrs, List.mem_cons, List.mem_append, h6]; tauto
        · intro b' hb'
          simp only [addrs, List.mem_cons, List.mem_append, not_or] at hb'
          exact h7 b' hb'.2.1
    · rw [if_neg hk]
      rcases hlp : r.ptr with _ | ra
      · have hl0 := ptr_none.mp hlp
        subst hl0
        refine ⟨_, node b l v (node new nil x nil), by rw [setRight_eq hm], ⟨by simp [ptr], ?_, ⟨?_, trivial, trivial⟩⟩, ?_, rfl,
          ?_, ?_, ?_⟩
        · exact holds_update n1 hl
        · rw [Function.update_of_ne hnb]; exact hnew
        · simp [erase, Bst.insert, hk]
        · refine nodup_mk n1 ?_ n3 (by simp [addrs]) ?_
          · simpa [addrs] using hnb.symm
          · intro b' hb' hc
            simp only [addrs, List.append_nil, List.mem_singleton] at hc
            subst hc
            exact hfresh.2.1 hb'
        · intro b'; simp [addrs]; tauto
        · intro b' hb'
          simp only [addrs, List.mem_cons, not_or] at hb'
          exact Function.update_of_ne hb'.1 _ _
      · obtain ⟨m', t', h1, h2, h3, h4, h5, h6, h7⟩ := ihr fuel s new ra hlp hr n4 hnew hfresh.2.2 (by omega) hcr
        refine ⟨m', node b l v t', h1, ⟨?_, ?_, h2⟩, ?_, rfl, ?_, ?_, ?_⟩
        · rw [h7 b n2, hm, h4]
        · exact holds_congr (fun b' hb' => h7 b' fun e => n5 b' hb' e) hl
        · simp [erase, Bst.insert, hk, h3]
        · refine nodup_mk n1 ?_ n3 h5 ?_
          · rw [h6]; exact fun e => e.elim (fun e => hnb e.symm) n2
          · intro b' hb' hc
            rcases (h6 b').mp hc with rfl | hc
            · exact hfresh.2.1 hb'
            · exact n5 b' hb' hc
        · intro b'; simp only [addrs, List.mem_cons, List.mem_append, h6]; tauto
        · intro b' hb'
          simp only [addrs, List.mem_cons, List.mem_append, not_or] at hb'
          exact h7 b' hb'.2.2

/-- The state holds the functional tree `f`: some tree with addresses that erases to it, no address used twice, all below
the next free one. -/
def Models (s : St V) (f : Bst V) : Prop :=
  ∃ t : ATree V, t.erase = f ∧ s.root = t.ptr ∧ Holds s.mem t ∧ t.addrs.Nodup ∧ ∀ a ∈ t.addrs, a < s.next

theorem models_new : Models (New : St V) .nil := ⟨.nil, rfl, rfl, trivial, by simp [addrs], by simp [addrs]⟩

/-- `Insert` does what the functional insert does. -/
theorem Insert_spec {cmp : V → V → Go Int} {c : V → V → Int} {s : St V} {f : Bst V} {x : V} {fuel : Nat} (h : Models s f)
    (hf : f.toList.length ≤ fuel) (hc : ∀ v ∈ f.toList, cmp x v = .ok (c x v)) :
    ∃ s', Insert cmp fuel s x = pure s' ∧ Models s' (f.insert c x) := by
  obtain ⟨t, rfl, hr, hh, hn, hlt⟩ := h
  unfold Insert
  have hfresh : s.next ∉ t.addrs := fun e => Nat.lt_irrefl _ (hlt _ e)
  rcases hp : t.ptr with _ | a
  · have ht := ptr_none.mp hp
    subst ht
    simp only [hr, ptr]
    refine ⟨_, rfl, node s.next nil x nil, rfl, rfl, ⟨by simp [ptr], trivial, trivial⟩, by simp [addrs], by simp [addrs]⟩
  · simp only [hr, hp]
    obtain ⟨m', t', h1, h2, h3, h4, h5, h6, -⟩ := insertLoop_spec (c := c) t fuel
      { s with mem := Function.update s.mem s.next (some ⟨x, none, none⟩), next := s.next + 1, root := some a } s.next a hp
      (holds_update hfresh hh) hn (by simp) hfresh (by rw [addrs_length]; exact hf) hc
    refine ⟨_, h1, t', h3, ?_, h2, h5, fun b hb => ?_⟩
    · simp only [hp, h4]
    · rcases (h6 b).mp hb with rfl | hb
      · exact Nat.lt_succ_self _
      · exact Nat.lt_succ_of_lt (hlt b hb)

/-! ## Min and Max -/

theorem minLoop_leaf {s : St V} {a : Nat} {v : V} {r : ATree V} {fuel : Nat} {p : Option Nat} (h : Holds s.mem (node a nil v r)) :
    minLoop (fuel + 1) s p a = pure (a, p) := by
  simp only [minLoop, load_some h.1, pure_bind', ptr_nil, ptr_node]

/-- The leftmost node and its parent; what becomes of the tree when the parent's left link is redirected. -/
theorem minLoop_spec {s : St V} : ∀ (l : ATree V) (a : Nat) (v : V) (r : ATree V) (fuel : Nat) (p : Option Nat),
    Holds s.mem (node a l v r) → (node a l v r).addrs.Nodup → l ≠ nil → l.addrs.length + 1 ≤ fuel →
      ∃ mn b nb nm t', minLoop fuel s p a = pure (mn, some b) ∧ s.mem b = some nb ∧ nb.left = some mn ∧
        s.mem mn = some nm ∧ nm.left = none ∧ nm.value = Bst.minVal l.erase v ∧ mn ∈ l.addrs ∧
        b ∈ (node a l v r).addrs ∧ mn ≠ b ∧
        Holds (Function.update s.mem b (some { nb with left := nm.right })) t' ∧
        t'.erase = (node a l v r).erase.removeMin ∧ t'.ptr = some a ∧ t'.addrs.Nodup ∧
        ∀ x ∈ t'.addrs, x ∈ (node a l v r).addrs := by
  intro l
  induction l with
  | nil => intro a v r fuel p _ _ h; exact absurd rfl h
  | node la ll lv lr ih _ =>
    intro a v r fuel p hh hn _ hf
    obtain ⟨hm, hl, hr⟩ := hh
    obtain ⟨n1, n2, n3, n4, n5⟩ := nodup_node hn
    obtain ⟨k1, k2, k3, k4, k5⟩ := nodup_node n3
    simp only [addrs, List.length_cons, List.length_append] at hf
    obtain ⟨fuel, rfl⟩ : ∃ f, fuel = f + 1 := ⟨fuel - 1, by omega⟩
    have hla : la ≠ a := fun e => n1 (by simp [addrs, e])
    by_cases hll : ll = nil
    · subst hll
      obtain ⟨fuel, rfl⟩ : ∃ f, fuel = f + 1 := ⟨fuel - 1, by omega⟩
      refine ⟨la, a, _, _, node a lr v r, ?_, hm, rfl, hl.1, rfl, rfl, by simp [addrs], by simp [addrs], hla, ⟨by simp, ?_, ?_⟩,
        ?_, rfl, ?_, ?_⟩
      · rw [minLoop, load_some hm]
        simp only [pure_bind', ptr_nil, ptr_node]
        exact minLoop_leaf hl
      · exact holds_update (fun e => n1 (by simp [addrs, e])) hl.2.2
      · exact holds_update n2 hr
      · simp [erase, Bst.removeMin]
      · exact nodup_mk (fun e => n1 (by simp [addrs, e])) n2 k4 n4 fun b hb => n5 b (by simp [addrs, hb])
      · intro x hx
        simp only [addrs, List.mem_cons, List.mem_append] at hx ⊢
        tauto
    · obtain ⟨mn, b, nb, nm, t', h1, h2, h3, h4, h5, h6, h7, h8, h9, h10, h11, h12, h13, h14⟩ :=
        ih la lv lr fuel (some a) hl n3 hll (by omega)
      have hba : b ≠ a := fun e => n1 (e ▸ h8)
      have hat : a ∉ t'.addrs := fun e => n1 (h14 a e)
      refine ⟨mn, b, nb, nm, node a t' v r, ?_, h2, h3, h4, h5, ?_, ?_, ?_, h9, ⟨?_, h10, ?_⟩, ?_, rfl, ?_, ?_⟩
      · rw [minLoop, load_some hm]
        simp only [pure_bind', ptr_nil, ptr_node]
        exact h1
      · rw [h6]; rfl
      · simp only [addrs, List.mem_cons, List.mem_append]; exact .inr (.inl h7)
      · rw [addrs]; exact List.mem_cons_of_mem _ (List.mem_append_left _ h8)
      · rw [Function.update_of_ne hba.symm, hm, h12]; rfl
      · exact holds_update (n5 b h8) hr
      · cases ll with
        | nil => exact absurd rfl hll
        | node x y z w => rw [erase, h11]; rfl
      · exact nodup_mk hat n2 h13 n4 fun c hc => n5 c (h14 c hc)
      · intro x hx
        rw [addrs, List.mem_cons, List.mem_append] at hx ⊢
        rcases hx with hx | hx | hx
        · exact .inl hx
        · exact .inr (.inl (h14 x hx))
        · exact .inr (.inr hx)

theorem Min_spec {s : St V} {f : Bst V} {fuel : Nat} (h : Models s f) (hf : f.toList.length ≤ fuel) :
    Min fuel s = pure f.min := by
  obtain ⟨t, rfl, hr, hh, hn, -⟩ := h
  rw [← addrs_length] at hf
  cases t with
  | nil => simp only [Min, hr, ptr_nil, ptr_node]; rfl
  | node a l v r =>
    simp only [Min, hr, ptr_nil, ptr_node]
    simp only [addrs, List.length_cons, List.length_append] at hf
    by_cases hl : l = nil
    · subst hl
      obtain ⟨fuel, rfl⟩ : ∃ f, fuel = f + 1 := ⟨fuel - 1, by omega⟩
      rw [minLoop_leaf hh]
      simp only [pure_bind', load_some hh.1]
      rfl
    · obtain ⟨mn, b, nb, nm, t', h1, h2, h3, h4, h5, h6, -⟩ := minLoop_spec l a v r fuel none hh hn hl (by omega)
      rw [h1]
      simp only [pure_bind', load_some h4, h6]
      rfl

theorem maxLoop_spec {s : St V} : ∀ (r : ATree V) (a : Nat) (v : V) (l : ATree V) (fuel : Nat) (p : Option Nat),
    Holds s.mem (node a l v r) → r.addrs.length + 1 ≤ fuel →
      ∃ mx q n, maxLoop fuel s p a = pure (mx, q) ∧ s.mem mx = some n ∧ n.value = Bst.maxVal r.erase v := by
  intro r
  induction r with
  | nil =>
    intro a v l fuel p hh hf
    obtain ⟨fuel, rfl⟩ : ∃ f, fuel = f + 1 := ⟨fuel - 1, by omega⟩
    exact ⟨a, p, _, by simp only [maxLoop, load_some hh.1, pure_bind', ptr_nil, ptr_node], hh.1, rfl⟩
  | node b rl rv rr _ ih =>
    intro a v l fuel p hh hf
    simp only [addrs, List.length_cons, List.length_append] at hf
    obtain ⟨fuel, rfl⟩ : ∃ f, fuel = f + 1 := ⟨fuel - 1, by omega⟩
    obtain ⟨mx, q, n, h1, h2, h3⟩ := ih b rv rl fuel (some a) hh.2.2 (by omega)
    refine ⟨mx, q, n, ?_, h2, h3⟩
    rw [maxLoop, load_some hh.1]
    simp only [pure_bind', ptr_nil, ptr_node]
    exact h1

theorem Max_spec {s : St V} {f : Bst V} {fuel : Nat} (h : Models s f) (hf : f.toList.length ≤ fuel) :
    Max fuel s = pure f.max := by
  obtain ⟨t, rfl, hr, hh, hn, -⟩ := h
  rw [← addrs_length] at hf
  cases t with
  | nil => simp only [Max, hr, ptr_nil, ptr_node]; rfl
  | node a l v r =>
    simp only [Max, hr, ptr_nil, ptr_node]
    simp only [addrs, List.length_cons, List.length_append] at hf
    obtain ⟨mx, q, n, h1, h2, h3⟩ := maxLoop_spec r a v l fuel none hh (by omega)
    rw [h1]
    simp only [pure_bind', load_some h2, h3]
    rfl

/-! ## Remove -/

/-- The place that points at a subtree. -/
inductive Slot
  | root
  | left (b : Nat)
  | right (b : Nat)

/-- The `parent` variable that belongs to a place. -/
def Slot.parent : Slot → Option Nat
  | .root => none
  | .left b => some b
  | .right b => some b

/-- Redirect the place. -/
def Slot.write (s : St V) (p : Option Nat) : Slot → St V
  | .root => { s with root := p }
  | .left b => setLeft s b p
  | .right b => setRight s b p

/-- The place points at `t`, and the test in `unlink` finds it. -/
def Slot.Fits (s : St V) (t : ATree V) : Slot → Prop
  | .root => s.root = t.ptr
  | .left b => b ∉ t.addrs ∧ (∀ a ∈ t.addrs, s.root ≠ some a) ∧ ∃ n, s.mem b = some n ∧ n.left = t.ptr
  | .right b => b ∉ t.addrs ∧ (∀ a ∈ t.addrs, s.root ≠ some a) ∧
      ∃ n, s.mem b = some n ∧ n.right = t.ptr ∧ ∀ a ∈ t.addrs, n.left ≠ some a

theorem Slot.write_same {s : St V} {t : ATree V} {σ : Slot} (h : σ.Fits s t) (m' : Nat → Option (Node V))
    (hm : ∀ b, b ∉ t.addrs → m' b = s.mem b) : σ.write { s with mem := m' } t.ptr = { s with mem := m' } := by
  cases σ with
  | root => simp only [Slot.write]; rw [← h]
  | left b =>
    obtain ⟨h1, h2, n, h3, h4⟩ := h
    have : m' b = some n := by rw [hm b h1, h3]
    simp only [Slot.write]
    rw [setLeft_eq (n := n) this, ← h4]
    simp only
    rw [← this, Function.update_eq_self]
  | right b =>
    obtain ⟨h1, h2, n, h3, h4, -⟩ := h
    have : m' b = some n := by rw [hm b h1, h3]
    simp only [Slot.write]
    rw [setRight_eq (n := n) this, ← h4]
    simp only
    rw [← this, Function.update_eq_self]

theorem unlink_spec {s : St V} {σ : Slot} {a : Nat} {l r : ATree V} {v : V} (hfit : σ.Fits s (node a l v r)) :
    unlink s σ.parent a ⟨v, l.ptr, r.ptr⟩ = pure (σ.write s (if l.ptr ≠ none then l.ptr else r.ptr)) := by
  unfold unlink
  cases σ with
  | root =>
    have : s.root = some a := hfit
    simp only [this, if_true]
    rfl
  | left b =>
    obtain ⟨h1, h2, n, h3, h4⟩ := hfit
    have h5 : some a ≠ s.root := (h2 a (by simp [addrs])).symm
    have h6 : n.left = some a := h4
    simp only [if_neg h5, Slot.parent, load_some h3, pure_bind', h6, if_true]
    rfl
  | right b =>
    obtain ⟨h1, h2, n, h3, h4, h5⟩ := hfit
    have h6 : some a ≠ s.root := (h2 a (by simp [addrs])).symm
    simp only [if_neg h6, Slot.parent, load_some h3, pure_bind', if_neg (h5 a (by simp [addrs]))]
    rfl

theorem fits_root_ne {s : St V} {σ : Slot} {a b : Nat} {l r : ATree V} {v : V} (hfit : σ.Fits s (node a l v r))
    (hb : b ∈ (node a l v r).addrs) (hba : b ≠ a) : s.root ≠ some b := by
  cases σ with
  | root => intro e; rw [show s.root = some a from hfit] at e; exact hba (Option.some.inj e).symm
  | left c => exact hfit.2.1 b hb
  | right c => exact hfit.2.1 b hb

theorem removeNode_spec {s : St V} {σ : Slot} {a : Nat} {l r : ATree V} {v : V} {fuel : Nat} (hfit : σ.Fits s (node a l v r))
    (hh : Holds s.mem (node a l v r)) (hn : (node a l v r).addrs.Nodup) (hf : (node a l v r).addrs.length ≤ fuel) :
    ∃ m' t', removeNode fuel s σ.parent a = pure (σ.write { s with mem := m' } t'.ptr) ∧
      (∀ b, b ∉ (node a l v r).addrs → m' b = s.mem b) ∧ Holds m' t' ∧ t'.addrs.Nodup ∧
      (∀ b ∈ t'.addrs, b ∈ (node a l v r).addrs) ∧ t'.erase = (node a l v r).erase.removeNode := by
  obtain ⟨hm, hl, hr⟩ := hh
  obtain ⟨n1, n2, n3, n4, n5⟩ := nodup_node hn
  have hf' := hf
  simp only [addrs, List.length_cons, List.length_append] at hf
  obtain ⟨fuel, rfl⟩ : ∃ f, fuel = f + 1 := ⟨fuel - 1, by omega⟩
  rw [removeNode, load_some hm]
  simp only [pure_bind']
  cases l with
  | nil =>
    simp only [ptr_nil, ptr_node]
    refine ⟨s.mem, r, ?_, fun _ _ => rfl, hr, n4, fun b hb => by simp [addrs, hb], by simp [erase, Bst.removeNode]⟩
    have := unlink_spec hfit
    simp only [ptr_nil, ptr_node, ne_eq, not_true_eq_false, if_false] at this
    exact this
  | node la ll lv lr =>
    cases r with
    | nil =>
      simp only [ptr_nil, ptr_node]
      refine ⟨s.mem, node la ll lv lr, ?_, fun _ _ => rfl, hl, n3, fun b hb => ?_, by simp [erase, Bst.removeNode]⟩
      · have := unlink_spec hfit
        simp only [ptr_nil, ptr_node, ne_eq, reduceCtorEq, not_false_eq_true, if_true] at this
        exact this
      · rw [addrs]; exact List.mem_cons_of_mem _ (List.mem_append_left _ hb)
    | node ra rl rv rr =>
      simp only [ptr_nil, ptr_node]
      have key : ∀ {m' : Nat → Option (Node V)} {r' : ATree V} {w : V}, (∀ b, b ∉ (node ra rl rv rr).addrs → b ≠ a → m' b = s.mem b) →
          m' a = some ⟨w, some la, r'.ptr⟩ → Holds m' r' → r'.addrs.Nodup →
          (∀ b ∈ r'.addrs, b ∈ (node ra rl rv rr).addrs) →
          Holds m' (node a (node la ll lv lr) w r') ∧ (node a (node la ll lv lr) w r').addrs.Nodup ∧
            (∀ b ∈ (node a (node la ll lv lr) w r').addrs, b ∈ (node a (node la ll lv lr) v (node ra rl rv rr)).addrs) := by
        intro m' r' w k1 k2 k3 k4 k5
        refine ⟨⟨k2, ?_, k3⟩, nodup_mk n1 (fun e => n2 (k5 _ e)) n3 k4 fun b hb e => n5 b hb (k5 b e), fun b hb => ?_⟩
        · exact holds_congr (fun b hb => k1 b (n5 b hb) fun e => n1 (e ▸ hb)) hl
        · rw [addrs, List.mem_cons, List.mem_append] at hb ⊢
          rcases hb with hb | hb | hb
          · exact .inl hb
          · exact .inr (.inl hb)
          · exact .inr (.inr (k5 b hb))
      obtain ⟨fuel, rfl⟩ : ∃ f, fuel = f + 1 := ⟨fuel - 1, by simp [addrs] at hf; omega⟩
      have hraa : ra ≠ a := fun e => n2 (by simp [addrs, e])
      by_cases hrl : rl = nil
      · subst hrl
        rw [minLoop_leaf hr]
        simp only [pure_bind']
        rw [removeNode, load_some hr.1]
        simp only [pure_bind', ptr_nil, ptr_node]
        have hroot : some ra ≠ s.root := (fits_root_ne hfit (by simp [addrs]) hraa).symm
        have hlane : (some la : Option Nat) ≠ some ra := fun e => n5 la (by simp [addrs]) (by rw [Option.some.inj e]; simp [addrs])
        simp only [unlink, if_neg hroot, load_some hm, pure_bind', ptr_nil, ptr_node, if_neg hlane, ne_eq, not_true_eq_false, if_false]
        rw [setRight_eq hm]
        have h1 : (Function.update s.mem a (some ⟨v, some la, rr.ptr⟩)) ra = some ⟨rv, none, rr.ptr⟩ := by
          rw [Function.update_of_ne hraa]; exact hr.1
        simp only [ptr_nil, ptr_node]
        rw [load_some (by exact h1)]
        simp only [pure_bind']
        rw [setValue_eq (n := ⟨v, some la, rr.ptr⟩) (by simp)]
        simp only [Function.update_idem]
        have k := key (m' := Function.update s.mem a (some ⟨rv, some la, rr.ptr⟩)) (r' := rr) (w := rv)
          (fun b _ hb => Function.update_of_ne hb _ _) (by simp) (holds_update (fun e => n2 (by simp [addrs, e])) hr.2.2)
          (nodup_node n4).2.2.2.1 (fun b hb => by simp [addrs, hb])
        have hoff : ∀ b, b ∉ (node a (node la ll lv lr) v (node ra nil rv rr)).addrs →
            Function.update s.mem a (some (⟨rv, some la, rr.ptr⟩ : Node V)) b = s.mem b := by
          intro b hb
          exact Function.update_of_ne (fun e => hb (by simp [addrs, e])) _ _
        refine ⟨_, node a (node la ll lv lr) rv rr, ?_, hoff, k.1, k.2.1, k.2.2, by simp [erase, Bst.removeNode, Bst.minVal, Bst.removeMin]⟩
        rw [show (node a (node la ll lv lr) rv rr).ptr = (node a (node la ll lv lr) v (node ra nil rv rr)).ptr from rfl,
          Slot.write_same hfit _ hoff]
      · obtain ⟨mn, b, nb, nm, t', h1, h2, h3, h4, h5, h6, h7, h8, h9, h10, h11, h12, h13, h14⟩ :=
          minLoop_spec rl ra rv rr (fuel + 1) none hr n4 hrl (by simp only [addrs, List.length_cons, List.length_append] at hf; omega)
        rw [h1]
        simp only [pure_bind']
        have hmnr : mn ∈ (node ra rl rv rr).addrs := by simp [addrs, h7]
        have hmna : mn ≠ a := fun e => n2 (e ▸ hmnr)
        have hba : b ≠ a := fun e => n2 (e ▸ h8)
        rw [removeNode, load_some h4]
        simp only [pure_bind', h5]
        have hroot : some mn ≠ s.root := (fits_root_ne hfit (by rw [addrs]; exact List.mem_cons_of_mem _ (List.mem_append_right _ hmnr)) hmna).symm
        simp only [unlink, if_neg hroot, load_some h2, pure_bind', h3, if_true, h5, ne_eq, not_true_eq_false, if_false]
        rw [setLeft_eq h2]
        rw [load_some (n := nm) (by simp only; rw [Function.update_of_ne h9]; exact h4)]
        simp only [pure_bind']
        rw [setValue_eq (n := ⟨v, some la, some ra⟩) (by simp only; rw [Function.update_of_ne hba.symm]; exact hm)]
        simp only [h6]
        have hat : a ∉ t'.addrs := fun e => n2 (h14 a e)
        have k := key (m' := Function.update (Function.update s.mem b (some { nb with left := nm.right })) a
            (some ⟨Bst.minVal rl.erase rv, some la, some ra⟩)) (r' := t') (w := Bst.minVal rl.erase rv)
          (fun c hc hca => by
            rw [Function.update_of_ne hca, Function.update_of_ne (fun e : c = b => hc (e ▸ h8))]) (by simp [h12])
          (holds_update hat h10) h13 h14
        have hoff : ∀ c, c ∉ (node a (node la ll lv lr) v (node ra rl rv rr)).addrs →
            Function.update (Function.update s.mem b (some { nb with left := nm.right })) a
              (some ⟨Bst.minVal rl.erase rv, some la, some ra⟩) c = s.mem c := by
          intro c hc
          rw [addrs, List.mem_cons, List.mem_append, not_or, not_or] at hc
          rw [Function.update_of_ne hc.1, Function.update_of_ne (fun e : c = b => hc.2.2 (e ▸ h8))]
        refine ⟨_, node a (node la ll lv lr) (Bst.minVal rl.erase rv) t', ?_, hoff, k.1, k.2.1, k.2.2, ?_⟩
        · rw [show (node a (node la ll lv lr) (Bst.minVal rl.erase rv) t').ptr = (node a (node la ll lv lr) v (node ra rl rv rr)).ptr from rfl,
            Slot.write_same hfit _ hoff]
        · rw [erase, h11]
          simp only [erase, Bst.removeNode]

theorem removeLoop_spec {cmp : V → V → Go Int} {c : V → V → Int} {x : V} :
    ∀ (t : ATree V) (fuel : Nat) (s : St V) (σ : Slot), σ.Fits s t → Holds s.mem t → t.addrs.Nodup → t.addrs.length ≤ fuel →
      (∀ v ∈ t.erase.toList, cmp x v = .ok (c x v) ∧ (c x v = 0 ∨ c x v = -1 ∨ c x v = 1)) →
      ∃ m' t', removeLoop cmp fuel s x σ.parent t.ptr =
          pure ((t.erase.remove c x).1, σ.write { s with mem := m' } t'.ptr) ∧
        (∀ b, b ∉ t.addrs → m' b = s.mem b) ∧ Holds m' t' ∧ t'.addrs.Nodup ∧ (∀ b ∈ t'.addrs, b ∈ t.addrs) ∧
        t'.erase = (t.erase.remove c x).2 := by
  intro t
  induction t with
  | nil =>
    intro fuel s σ hfit _ _ _ _
    refine ⟨s.mem, nil, ?_, fun _ _ => rfl, trivial, by simp [addrs], fun b hb => hb, rfl⟩
    rw [Slot.write_same hfit s.mem fun _ _ => rfl]
    simp only [ptr_nil, ptr_node]
    rw [removeLoop]
    rfl
  | node a l v r ihl ihr =>
    intro fuel s σ hfit hh hn hf hc
    have hh' := hh
    obtain ⟨hm, hl, hr⟩ := hh
    obtain ⟨n1, n2, n3, n4, n5⟩ := nodup_node hn
    obtain ⟨hv, hv3⟩ := hc v (by simp [erase, Bst.toList])
    have hcl : ∀ w ∈ l.erase.toList, cmp x w = .ok (c x w) ∧ (c x w = 0 ∨ c x w = -1 ∨ c x w = 1) :=
      fun w hw => hc w (by simp [erase, Bst.toList, hw])
    have hcr : ∀ w ∈ r.erase.toList, cmp x w = .ok (c x w) ∧ (c x w = 0 ∨ c x w = -1 ∨ c x w = 1) :=
      fun w hw => hc w (by simp [erase, Bst.toList, hw])
    obtain ⟨fuel, rfl⟩ : ∃ f, fuel = f + 1 := ⟨fuel - 1, by simp only [addrs, List.length_cons] at hf; omega⟩
    have hf' := hf
    simp only [addrs, List.length_cons, List.length_append] at hf'
    simp only [ptr_nil, ptr_node]
    rw [removeLoop, load_some hm]
    simp only [pure_bind', hv, ofGo_ok]
    rcases hv3 with h0 | h0 | h0
    · rw [if_pos h0]
      obtain ⟨m', t', h1, h2, h3, h4, h5, h6⟩ := removeNode_spec hfit hh' hn hf
      refine ⟨m', t', ?_, h2, h3, h4, h5, ?_⟩
      · rw [h1]
        simp only [pure_bind', erase, Bst.remove, if_pos h0]
      · rw [h6]
        simp only [erase, Bst.remove, if_pos h0]
    · rw [if_neg (by omega), if_pos h0]
      have hfl : (Slot.left a).Fits s l := ⟨n1, fun b hb => fits_root_ne hfit (by simp [addrs, hb]) fun e => n1 (e ▸ hb), _, hm, rfl⟩
      obtain ⟨m', t', h1, h2, h3, h4, h5, h6⟩ := ihl fuel s (.left a) hfl hl n3 (by omega) hcl
      have hat : a ∉ t'.addrs := fun e => n1 (h5 a e)
      have hma : m' a = some ⟨v, l.ptr, r.ptr⟩ := by rw [h2 a n1, hm]
      have hoff : ∀ b, b ∉ (node a l v r).addrs → Function.update m' a (some ⟨v, t'.ptr, r.ptr⟩) b = s.mem b := by
        intro b hb
        simp only [addrs, List.mem_cons, List.mem_append, not_or] at hb
        rw [Function.update_of_ne hb.1, h2 b hb.2.1]
      refine ⟨Function.update m' a (some ⟨v, t'.ptr, r.ptr⟩), node a t' v r, ?_, hoff, ⟨by simp, holds_update hat h3, ?_⟩, ?_, ?_, ?_⟩
      · rw [show (node a t' v r).ptr = (node a l v r).ptr from rfl, Slot.write_same hfit _ hoff]
        have := h1
        simp only [Slot.parent, Slot.write] at this
        rw [this, setLeft_eq (n := ⟨v, l.ptr, r.ptr⟩) (by exact hma)]
        simp only [erase, Bst.remove, if_neg (show ¬ c x v = 0 by omega), if_pos h0]
      · refine holds_update n2 (holds_congr (fun b hb => h2 b fun e => n5 b e hb) hr)
      · exact nodup_mk hat n2 h4 n4 fun b hb => n5 b (h5 b hb)
      · intro b hb
        simp only [addrs, List.mem_cons, List.mem_append] at hb ⊢
        rcases hb with hb | hb | hb
        · exact .inl hb
        · exact .inr (.inl (h5 b hb))
        · exact .inr (.inr hb)
      · simp only [erase, Bst.remove, if_neg (show ¬ c x v = 0 by omega), if_pos h0, h6]
    · rw [if_neg (by omega), if_neg (by omega), if_pos h0]
      have hfr : (Slot.right a).Fits s r := ⟨n2, fun b hb => fits_root_ne hfit (by simp [addrs, hb]) fun e => n2 (e ▸ hb), _, hm, rfl,
        fun b hb e => n5 b (ptr_mem e) hb⟩
      obtain ⟨m', t', h1, h2, h3, h4, h5, h6⟩ := ihr fuel s (.right a) hfr hr n4 (by omega) hcr
      have hat : a ∉ t'.addrs := fun e => n2 (h5 a e)
      have hma : m' a = some ⟨v, l.ptr, r.ptr⟩ := by rw [h2 a n2, hm]
      have hoff : ∀ b, b ∉ (node a l v r).addrs → Function.update m' a (some ⟨v, l.ptr, t'.ptr⟩) b = s.mem b := by
        intro b hb
        simp only [addrs, List.mem_cons, List.mem_append, not_or] at hb
        rw [Function.update_of_ne hb.1, h2 b hb.2.2]
      refine ⟨Function.update m' a (some ⟨v, l.ptr, t'.ptr⟩), node a l v t', ?_, hoff, ⟨by simp, ?_, holds_update hat h3⟩, ?_, ?_, ?_⟩
      · rw [show (node a l v t').ptr = (node a l v r).ptr from rfl, Slot.write_same hfit _ hoff]
        have := h1
        simp only [Slot.parent, Slot.write] at this
        rw [this, setRight_eq (n := ⟨v, l.ptr, r.ptr⟩) (by exact hma)]
        simp only [erase, Bst.remove, if_neg (show ¬ c x v = 0 by omega), if_neg (show ¬ c x v = -1 by omega)]
      · refine holds_update n1 (holds_congr (fun b hb => h2 b fun e => n5 b hb e) hl)
      · exact nodup_mk n1 hat n3 h4 fun b hb e => n5 b hb (h5 b e)
      · intro b hb
        simp only [addrs, List.mem_cons, List.mem_append] at hb ⊢
        rcases hb with hb | hb | hb
        · exact .inl hb
        · exact .inr (.inl hb)
        · exact .inr (.inr (h5 b hb))
      · simp only [erase, Bst.remove, if_neg (show ¬ c x v = 0 by omega), if_neg (show ¬ c x v = -1 by omega), h6]

/-- `Remove` does what the functional remove does and gives the same answer. -/
theorem Remove_spec {cmp : V → V → Go Int} {c : V → V → Int} {s : St V} {f : Bst V} {x : V} {fuel : Nat} (h : Models s f)
    (hf : f.toList.length ≤ fuel) (hc : ∀ v ∈ f.toList, cmp x v = .ok (c x v) ∧ (c x v = 0 ∨ c x v = -1 ∨ c x v = 1)) :
    ∃ s', Remove cmp fuel s x = pure ((f.remove c x).1, s') ∧ Models s' (f.remove c x).2 := by
  obtain ⟨t, rfl, hr, hh, hn, hlt⟩ := h
  obtain ⟨m', t', h1, h2, h3, h4, h5, h6⟩ := removeLoop_spec (cmp := cmp) (c := c) (x := x) t fuel s .root hr hh hn
    (by rw [addrs_length]; exact hf) hc
  refine ⟨{ s with mem := m', root := t'.ptr }, ?_, t', h6, rfl, h3, h4, fun a ha => hlt a (h5 a ha)⟩
  rw [Remove, hr]
  exact h1

end Verif.Container.Ptr
