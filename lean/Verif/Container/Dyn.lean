import Verif.Container.Bst

/-!
# The search tree on dynamic values (`container/comparable.go`, `container/bst/bst.go`)

`Bst` works on values of one type. The Go tree stores `interface{}` values and finds out at run time how to compare
them; this file keeps the type switch, the type assertions, and the `switch` of `Remove` that has no default case.
-/

namespace Verif.Container

/-- A value of type `interface{}` as container/comparable.go:14-28 distinguishes them: a `float64`, an `int64`, a value whose
type has a method `Compare` (container/comparable.go:4-8), or anything else (`nil` included). -/
inductive Val (F O : Type _) where
  | float (x : F)
  | int (n : Int)
  | obj (o : O)
  | other (tag : Nat)
  deriving DecidableEq, Repr

variable {F O : Type _} [GoFloat F]

/-- Models container/comparable.go:14-28 `Compare`; `m` is the method `Compare` of the user's type. Simplification: the method
does not panic. -/
def Compare (m : O → O → Int) : Val F O → Val F O → Go Int
  | .obj a, .obj b => .ok (m a b)
  | .obj _, _ => .error .typeAssert
  | .float a, .float b => .ok (compareFloat64 a b)
  | .float _, _ => .error .typeAssert
  | .int a, .int b => .ok (compareInt64 a b)
  | .int _, _ => .error .typeAssert
  | .other _, _ => .error (.explicit "not comparable")

namespace Bst

/-- Models container/bst/bst.go:32-61 `Insert` on dynamic values. -/
def insertDyn (m : O → O → Int) (x : Val F O) : Bst (Val F O) → Go (Bst (Val F O))
  | nil => .ok (node nil x nil)
  | node l v r => do
    if (← Compare m x v) ≤ 0 then
      let l' ← insertDyn m x l
      pure (node l' v r)
    else
      let r' ← insertDyn m x r
      pure (node l v r')

/-- Models container/bst/bst.go:64-85 `Remove` on dynamic values, `n` rounds of its loop at most: `none` when it has not
returned by then. The `switch` has the cases 0, -1 and 1 only; for any other answer the round changes nothing. -/
def removeDyn (m : O → O → Int) : Nat → Val F O → Bst (Val F O) → Option (Go (Bool × Bst (Val F O)))
  | 0, _, _ => none
  | _ + 1, _, nil => some (.ok (false, nil))
  | n + 1, x, node l v r =>
    match Compare m x v with
    | .error e => some (.error e)
    | .ok c =>
      if c = 0 then some (.ok (true, removeNode (node l v r)))
      else if c = -1 then (removeDyn m n x l).map fun g => g.map fun q => (q.1, node q.2 v r)
      else if c = 1 then (removeDyn m n x r).map fun g => g.map fun q => (q.1, node l v q.2)
      else removeDyn m n x (node l v r)

/-- The tree with every value replaced (specification device). -/
def mapVal {V W : Type _} (e : V → W) : Bst V → Bst W
  | nil => nil
  | node l v r => node (l.mapVal e) (e v) (r.mapVal e)

theorem toList_mapVal {V W : Type _} (e : V → W) (t : Bst V) : (t.mapVal e).toList = t.toList.map e := by
  induction t with
  | nil => rfl
  | node l v r ihl ihr => simp [mapVal, toList, ihl, ihr]

theorem minVal_mapVal {V W : Type _} (e : V → W) (t : Bst V) (v : V) : minVal (t.mapVal e) (e v) = e (minVal t v) := by
  induction t generalizing v with
  | nil => rfl
  | node l w r ihl _ => exact ihl w

theorem removeMin_mapVal {V W : Type _} (e : V → W) (t : Bst V) : (t.mapVal e).removeMin = t.removeMin.mapVal e := by
  induction t with
  | nil => rfl
  | node l v r ihl _ =>
    cases l with
    | nil => rfl
    | node l' v' r' => simp only [mapVal, removeMin] at ihl ⊢; rw [ihl]

theorem removeNode_mapVal {V W : Type _} (e : V → W) (t : Bst V) : (t.mapVal e).removeNode = t.removeNode.mapVal e := by
  cases t with
  | nil => rfl
  | node l v r =>
    cases l with
    | nil => rfl
    | node a b c =>
      cases r with
      | nil => rfl
      | node a' b' c' =>
        have h := removeMin_mapVal e (node a' b' c')
        simp only [mapVal] at h
        simp only [mapVal, removeNode, h, minVal_mapVal]

section
variable {V : Type _} {cmp : V → V → Int} {e : V → Val F O} {m : O → O → Int}

theorem insertDyn_map (h : ∀ a b, Compare m (e a) (e b) = .ok (cmp a b)) (x : V) (t : Bst V) :
    insertDyn m (e x) (t.mapVal e) = .ok ((t.insert cmp x).mapVal e) := by
  induction t with
  | nil => rfl
  | node l v r ihl ihr =>
    simp only [mapVal, insertDyn, h, insert]
    by_cases hc : cmp x v ≤ 0
    · simp [bind, Except.bind, hc, ihl, mapVal, pure, Except.pure]
    · simp [bind, Except.bind, hc, ihr, mapVal, pure, Except.pure]

theorem removeDyn_map (h : ∀ a b, Compare m (e a) (e b) = .ok (cmp a b))
    (hc : ∀ a b, cmp a b = -1 ∨ cmp a b = 0 ∨ cmp a b = 1) (x : V) (t : Bst V) {n : Nat} (hn : t.toList.length < n) :
    removeDyn m n (e x) (t.mapVal e) = some (.ok ((t.remove cmp x).1, (t.remove cmp x).2.mapVal e)) := by
  induction t generalizing n with
  | nil =>
    cases n with
    | zero => omega
    | succ n => rfl
  | node l v r ihl ihr =>
    cases n with
    | zero => omega
    | succ n =>
      simp only [toList, List.length_append, List.length_cons] at hn
      simp only [mapVal, removeDyn, h, remove]
      rcases hc x v with hv | hv | hv
      · rw [if_neg (by omega), if_pos hv, if_neg (by omega), if_pos hv, ihl (by omega)]; rfl
      · rw [if_pos hv, if_pos hv, ← removeNode_mapVal]; rfl
      · rw [if_neg (by omega), if_neg (by omega), if_pos hv, if_neg (by omega), if_neg (by omega), ihr (by omega)]; rfl

end

end Bst

end Verif.Container
