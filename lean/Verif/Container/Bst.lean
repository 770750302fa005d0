import Mathlib.Data.Multiset.AddSub
import Mathlib.Order.Basic
import Verif.Go.Num

/-!
# Model of `container/comparable.go` and `container/bst/bst.go`
-/

namespace Verif.Container

/-- Models container/comparable.go:30-40 `compareFloat64`. -/
def compareFloat64 [GoFloat F] (first second : F) : Int :=
  if first <. second then -1 else if first >. second then 1 else 0

/-- Models container/comparable.go:42-52 `compareInt64`. -/
def compareInt64 (first second : Int) : Int :=
  if first < second then -1 else if first > second then 1 else 0

/-- Models container/bst/bst.go:7-17 `Node`/`Bst`: a nil or a node. Simplification: the tree is
reached only through its root, so the pointer structure is an inductive tree; values are of one
type `V` compared by `cmp` (container/comparable.go:14-28 with the type switch resolved). -/
inductive Bst (V : Type _) where
  | nil
  | node (left : Bst V) (value : V) (right : Bst V)
  deriving Repr, DecidableEq

namespace Bst
variable {V : Type _} (cmp : V → V → Int)

/-- Models container/bst/bst.go:32-61 `Insert` (the descent loop as recursion). -/
def insert (x : V) : Bst V → Bst V
  | nil => node nil x nil
  | node l v r => if cmp x v ≤ 0 then node (insert x l) v r else node l v (insert x r)

/-- Models container/bst/bst.go:24-29 `Inserts`. -/
def inserts (xs : List V) (t : Bst V) : Bst V := xs.foldl (fun t v => insert cmp v t) t

/-- Models container/bst/bst.go:136-150 `minNode` on a non-nil root with left child `l` and value
`v`: the value of the leftmost node. -/
def minVal : Bst V → V → V
  | nil, v => v
  | node l' v' _, _ => minVal l' v'

/-- Models container/bst/bst.go:153-167 `maxNode` on a non-nil root with right child `r` and value
`v`: the value of the rightmost node. -/
def maxVal : Bst V → V → V
  | nil, v => v
  | node _ v' r', _ => maxVal r' v'

/-- Models container/bst/bst.go:88-95 `Min` (nil is `none`). -/
def min : Bst V → Option V
  | nil => none
  | node l v _ => some (minVal l v)

/-- Models container/bst/bst.go:98-105 `Max` (nil is `none`). -/
def max : Bst V → Option V
  | nil => none
  | node _ v r => some (maxVal r v)

/-- Models the inner call of container/bst/bst.go:115 `t.removeNode(minParent, min)`: the leftmost
node has no left child, so it is replaced by its right child (lines 118-131). -/
def removeMin : Bst V → Bst V
  | nil => nil
  | node nil _ r => r
  | node (node l' v' r') v r => node (removeMin (node l' v' r')) v r

/-- Models container/bst/bst.go:108-133 `removeNode` applied to the root of a subtree: the new
subtree. -/
def removeNode : Bst V → Bst V
  | nil => nil
  | node nil _ r => r
  | node l _ nil => l
  | node l _ (node l' v' r') => node l (minVal l' v') (removeMin (node l' v' r'))

/-- Models container/bst/bst.go:64-85 `Remove`: found flag and new tree. -/
def remove (x : V) : Bst V → Bool × Bst V
  | nil => (false, nil)
  | node l v r =>
    if cmp x v = 0 then (true, removeNode (node l v r))
    else if cmp x v = -1 then
      let (b, l') := remove x l
      (b, node l' v r)
    else
      let (b, r') := remove x r
      (b, node l v r')

/-- In-order list of the stored values (specification device). -/
def toList : Bst V → List V
  | nil => []
  | node l v r => l.toList ++ v :: r.toList

/-! ## Lemmas that need no order -/

theorem head_toList (l : Bst V) (v : V) (r : Bst V) :
    (node l v r).toList.head? = some (minVal l v) := by
  induction l generalizing v r with
  | nil => simp [toList, minVal]
  | node l' v' r' ih _ =>
    have := ih v' (node r' v r)
    simpa [toList, minVal] using this

theorem getLast_toList (l : Bst V) (v : V) (r : Bst V) :
    (node l v r).toList.getLast? = some (maxVal r v) := by
  induction r generalizing v l with
  | nil => simp [toList, maxVal]
  | node l' v' r' _ ih =>
    have := ih (node l v l') v'
    simpa [toList, maxVal] using this

theorem min_eq_head (t : Bst V) : t.min = t.toList.head? := by
  cases t with
  | nil => rfl
  | node l v r => rw [head_toList]; rfl

theorem max_eq_getLast (t : Bst V) : t.max = t.toList.getLast? := by
  cases t with
  | nil => rfl
  | node l v r => rw [getLast_toList]; rfl

theorem toList_removeMin (t : Bst V) : t.removeMin.toList = t.toList.tail := by
  induction t with
  | nil => rfl
  | node l v r ihl _ =>
    cases l with
    | nil => simp [removeMin, toList]
    | node l' v' r' =>
      simp only [removeMin, toList] at ihl ⊢
      rw [ihl]
      cases h : l'.toList <;> simp

theorem toList_removeNode (l : Bst V) (v : V) (r : Bst V) :
    (removeNode (node l v r)).toList = l.toList ++ r.toList := by
  cases l with
  | nil => simp [removeNode, toList]
  | node l' v' r' =>
    cases r with
    | nil => simp [removeNode, toList]
    | node a b c =>
      have h := head_toList a b c
      simp only [removeNode]
      rw [toList, toList_removeMin]
      cases h' : (node a b c).toList with
      | nil => simp [h'] at h
      | cons w ws => simp_all

theorem toList_insert_perm (x : V) (t : Bst V) :
    List.Perm (insert cmp x t).toList (x :: t.toList) := by
  induction t with
  | nil => simp [insert, toList]
  | node l v r ihl ihr =>
    simp only [insert]
    split
    · simp only [toList]
      exact (ihl.append_right _)
    · simp only [toList]
      refine ((ihr.cons v).append_left _).trans ?_
      refine List.Perm.trans ?_ List.perm_middle
      exact List.Perm.append_left _ (List.Perm.swap _ _ _)

theorem length_insert (x : V) (t : Bst V) :
    (insert cmp x t).toList.length = t.toList.length + 1 := by
  simpa using (toList_insert_perm cmp x t).length_eq

theorem length_remove (x : V) (t : Bst V) :
    t.toList.length ≤ (remove cmp x t).2.toList.length + 1 := by
  induction t with
  | nil => simp [remove, toList]
  | node l v r ihl ihr =>
    simp only [remove]
    split
    · rw [toList_removeNode]; simp [toList]; omega
    · split
      · simp only [toList, List.length_append, List.length_cons]; omega
      · simp only [toList, List.length_append, List.length_cons]; omega

theorem max_isSome_of_length {t : Bst V} (h : 0 < t.toList.length) : t.max.isSome := by
  cases t with
  | nil => simp [toList] at h
  | node l v r => rfl

theorem min_isSome_of_length {t : Bst V} (h : 0 < t.toList.length) : t.min.isSome := by
  cases t with
  | nil => simp [toList] at h
  | node l v r => rfl

end Bst

/-- `cmp` agrees with a linear order of keys on the values satisfying `good`. -/
structure CmpKey {V : Type _} (cmp : V → V → Int) (L : Type _) [LinearOrder L] where
  good : V → Prop
  key : V → L
  cmp_eq : ∀ {a b}, good a → good b →
    cmp a b = if key a < key b then -1 else if key b < key a then 1 else 0

/-- Float comparison from an order key (float64 without NaN). -/
def cmpFloat [GoFloat F] {L : Type _} [LinearOrder L] (o : OrdKey F L) :
    CmpKey (compareFloat64 (F := F)) L where
  good := o.good
  key := o.key
  cmp_eq := by
    intro a b ha hb
    have h1 := o.lt_iff ha hb
    have h2 := o.lt_iff hb ha
    unfold compareFloat64 GoFloat.gt
    simp only [h1, h2]

/-- Integer comparison. -/
def cmpInt : CmpKey compareInt64 Int where
  good _ := True
  key := id
  cmp_eq := by
    intro a b _ _
    simp [compareInt64]

namespace Bst
variable {V : Type _} {cmp : V → V → Int} {L : Type _} [LinearOrder L] (c : CmpKey cmp L)

/-- The invariant of the search tree: all values good, in-order list sorted by key (equal keys may
sit on either side: removal of a two-child node can move an equal value to the right). -/
def Inv (t : Bst V) : Prop :=
  (∀ v ∈ t.toList, c.good v) ∧ t.toList.Pairwise (fun a b => c.key a ≤ c.key b)

theorem Inv.nil : Inv c (Bst.nil : Bst V) := by simp [Inv, toList]

variable {c}

theorem Inv.insert {t : Bst V} (h : Inv c t) {x : V} (hx : c.good x) :
    Inv c (t.insert cmp x) := by
  induction t with
  | nil => simpa [Inv, Bst.insert, toList] using hx
  | node l v r ihl ihr =>
    obtain ⟨hg, hs⟩ := h
    simp only [toList, List.mem_append, List.mem_cons, List.pairwise_append,
      List.pairwise_cons] at hg hs
    obtain ⟨sl, ⟨hvr, sr⟩, hlr⟩ := hs
    have gv : c.good v := hg v (by simp)
    have il := ihl ⟨fun w hw => hg w (by simp [hw]), sl⟩
    have ir := ihr ⟨fun w hw => hg w (by simp [hw]), sr⟩
    have pl := toList_insert_perm cmp x l
    have pr := toList_insert_perm cmp x r
    simp only [Bst.insert, c.cmp_eq hx gv]
    by_cases h1 : c.key x < c.key v
    · simp only [h1, if_true, Inv, toList, List.mem_append, List.mem_cons, List.pairwise_append,
        List.pairwise_cons, show ((-1 : Int) ≤ 0) from by decide]
      refine ⟨?_, il.2, ⟨hvr, sr⟩, ?_⟩
      · rintro w (hw | rfl | hw)
        · exact il.1 w hw
        · exact gv
        · exact hg w (by simp [hw])
      · intro a ha b hb
        have ha' := pl.mem_iff.mp ha
        rcases List.mem_cons.mp ha' with rfl | ha'
        · rcases hb with rfl | hb
          · exact h1.le
          · exact h1.le.trans (hvr b hb)
        · exact hlr a ha' b hb
    · by_cases h2 : c.key v < c.key x
      · simp only [h1, h2, if_true, if_false, Inv, toList, List.mem_append, List.mem_cons,
          List.pairwise_append, List.pairwise_cons, show ¬ ((1 : Int) ≤ 0) from by decide]
        refine ⟨?_, sl, ⟨?_, ir.2⟩, ?_⟩
        · rintro w (hw | rfl | hw)
          · exact hg w (by simp [hw])
          · exact gv
          · exact ir.1 w hw
        · intro b hb
          rcases List.mem_cons.mp (pr.mem_iff.mp hb) with rfl | hb
          · exact h2.le
          · exact hvr b hb
        · intro a ha b hb
          rcases hb with rfl | hb
          · exact hlr a ha _ (by simp)
          · rcases List.mem_cons.mp (pr.mem_iff.mp hb) with rfl | hb
            · exact (hlr a ha v (by simp)).trans h2.le
            · exact hlr a ha b (by simp [hb])
      · simp only [h1, h2, if_true, if_false, Inv, toList, List.mem_append, List.mem_cons,
          List.pairwise_append, List.pairwise_cons, show ((0 : Int) ≤ 0) from by decide]
        refine ⟨?_, il.2, ⟨hvr, sr⟩, ?_⟩
        · rintro w (hw | rfl | hw)
          · exact il.1 w hw
          · exact gv
          · exact hg w (by simp [hw])
        · intro a ha b hb
          rcases List.mem_cons.mp (pl.mem_iff.mp ha) with rfl | ha'
          · rcases hb with rfl | hb
            · exact not_lt.mp h2
            · exact (not_lt.mp h2).trans (hvr b hb)
          · exact hlr a ha' b hb

/-- `Remove` on an ordered tree: either it finds a value with an equal key and its in-order list is
the old one without that occurrence, or no such value is stored and nothing changes. -/
theorem remove_spec {t : Bst V} (h : Inv c t) {x : V} (hx : c.good x) :
    ((t.remove cmp x).1 = true ∧ ∃ y l₁ l₂, c.key y = c.key x ∧ t.toList = l₁ ++ y :: l₂ ∧
        (t.remove cmp x).2.toList = l₁ ++ l₂) ∨
    ((t.remove cmp x).1 = false ∧ (t.remove cmp x).2 = t ∧ ∀ y ∈ t.toList, c.key y ≠ c.key x) := by
  induction t with
  | nil => right; simp [remove, toList]
  | node l v r ihl ihr =>
    obtain ⟨hg, hs⟩ := h
    simp only [toList, List.mem_append, List.mem_cons, List.pairwise_append,
      List.pairwise_cons] at hg hs
    obtain ⟨sl, ⟨hvr, sr⟩, hlr⟩ := hs
    have gv : c.good v := hg v (by simp)
    have il := ihl ⟨fun w hw => hg w (by simp [hw]), sl⟩
    have ir := ihr ⟨fun w hw => hg w (by simp [hw]), sr⟩
    simp only [remove, c.cmp_eq hx gv]
    by_cases h1 : c.key x < c.key v
    · simp only [h1, if_true, if_false, show ¬ ((-1 : Int) = 0) from by decide]
      rcases il with ⟨b, y, l₁, l₂, hy, e1, e2⟩ | ⟨b, e, hn⟩
      · left
        refine ⟨b, y, l₁, l₂ ++ v :: r.toList, hy, ?_, ?_⟩
        · simp [toList, e1]
        · simp [toList, e2]
      · right
        refine ⟨b, by rw [e], ?_⟩
        intro y hy
        simp only [toList, List.mem_append, List.mem_cons] at hy
        rcases hy with hy | rfl | hy
        · exact hn y hy
        · exact h1.ne'
        · exact (h1.trans_le (hvr y hy)).ne'
    · by_cases h2 : c.key v < c.key x
      · simp only [h1, h2, if_true, if_false, show ¬ ((1 : Int) = 0) from by decide,
          show ¬ ((1 : Int) = -1) from by decide]
        rcases ir with ⟨b, y, l₁, l₂, hy, e1, e2⟩ | ⟨b, e, hn⟩
        · left
          refine ⟨b, y, l.toList ++ v :: l₁, l₂, hy, ?_, ?_⟩
          · simp [toList, e1]
          · simp [toList, e2]
        · right
          refine ⟨b, by rw [e], ?_⟩
          intro y hy
          simp only [toList, List.mem_append, List.mem_cons] at hy
          rcases hy with hy | rfl | hy
          · exact ((hlr y hy v (by simp)).trans_lt h2).ne
          · exact h2.ne
          · exact hn y hy
      · left
        simp only [h1, h2, if_true, if_false]
        exact ⟨trivial, v, l.toList, r.toList, le_antisymm (not_lt.mp h1) (not_lt.mp h2), rfl,
          toList_removeNode l v r⟩

theorem Inv.remove {t : Bst V} (h : Inv c t) {x : V} (hx : c.good x) :
    Inv c (t.remove cmp x).2 := by
  rcases remove_spec h hx with ⟨_, y, l₁, l₂, _, e1, e2⟩ | ⟨_, e, _⟩
  · have hsub : List.Sublist (l₁ ++ l₂) (l₁ ++ y :: l₂) :=
      List.Sublist.append_left (List.sublist_cons_self y l₂) l₁
    refine ⟨?_, ?_⟩
    · intro v hv; rw [e2] at hv; exact h.1 v (by rw [e1]; exact hsub.subset hv)
    · rw [e2]; exact (by simpa [e1] using h.2 : (l₁ ++ y :: l₂).Pairwise _).sublist hsub
  · rw [e]; exact h

/-- The multiset of keys stored in the tree. -/
def keys (c : CmpKey cmp L) (t : Bst V) : Multiset L := ((t.toList.map c.key : List L) : Multiset L)

theorem keys_insert (x : V) (t : Bst V) : (t.insert cmp x).keys c = c.key x ::ₘ t.keys c := by
  unfold keys
  rw [Multiset.cons_coe, Multiset.coe_eq_coe, ← List.map_cons (f := c.key)]
  exact (toList_insert_perm cmp x t).map _

theorem keys_remove {t : Bst V} (h : Inv c t) {x : V} (hx : c.good x) :
    (t.remove cmp x).2.keys c = (t.keys c).erase (c.key x) ∧
    ((t.remove cmp x).1 = true ↔ c.key x ∈ t.keys c) := by
  rcases remove_spec h hx with ⟨b, y, l₁, l₂, hy, e1, e2⟩ | ⟨b, e, hn⟩
  · have e3 : t.keys c = c.key x ::ₘ ((l₁ ++ l₂).map c.key : List L) := by
      unfold keys
      rw [Multiset.cons_coe, Multiset.coe_eq_coe, e1, ← hy, ← List.map_cons (f := c.key)]
      exact List.perm_middle.map _
    refine ⟨?_, by simp [b, e3]⟩
    rw [e3, Multiset.erase_cons_head]
    unfold keys; rw [e2]
  · have hnm : c.key x ∉ t.keys c := by
      simpa [keys] using hn
    refine ⟨by rw [e, Multiset.erase_of_notMem hnm], by simp [b, hnm]⟩

theorem min_spec {t : Bst V} (h : Inv c t) :
    (t.min = none ↔ t.keys c = 0) ∧
    ∀ v, t.min = some v → c.good v ∧ v ∈ t.toList ∧ ∀ k ∈ t.keys c, c.key v ≤ k := by
  rw [min_eq_head]
  refine ⟨by simp [keys], ?_⟩
  intro v hv
  cases hl : t.toList with
  | nil => simp [hl] at hv
  | cons w l =>
    rw [hl] at hv
    simp only [List.head?_cons, Option.some.injEq] at hv
    subst hv
    have hs := h.2
    rw [hl] at hs
    refine ⟨h.1 w (by simp [hl]), by simp, ?_⟩
    intro k hk
    simp only [keys, hl, List.map_cons, Multiset.mem_coe, List.mem_cons, List.mem_map] at hk
    rcases hk with rfl | ⟨u, hu, rfl⟩
    · exact le_rfl
    · exact (List.pairwise_cons.mp hs).1 u hu

theorem max_spec {t : Bst V} (h : Inv c t) :
    (t.max = none ↔ t.keys c = 0) ∧
    ∀ v, t.max = some v → c.good v ∧ v ∈ t.toList ∧ ∀ k ∈ t.keys c, k ≤ c.key v := by
  rw [max_eq_getLast]
  refine ⟨by simp [keys], ?_⟩
  intro v hv
  obtain ⟨l, hl⟩ := List.getLast?_eq_some_iff.mp hv
  have hs := h.2
  rw [hl] at hs
  refine ⟨h.1 v (by simp [hl]), by simp [hl], ?_⟩
  intro k hk
  simp only [keys, hl, List.map_append, Multiset.mem_coe, List.mem_append, List.mem_map] at hk
  rcases hk with ⟨u, hu, rfl⟩ | ⟨u, hu, rfl⟩
  · exact (List.pairwise_append.mp hs).2.2 u hu v (by simp)
  · simp only [List.mem_singleton] at hu; rw [hu]

end Bst

end Verif.Container
