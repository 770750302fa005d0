import Verif.Container.Bst
import Verif.Container.Queue
import Verif.Ta.Window
import Verif.Spec
import Mathlib.Algebra.Order.Ring.Rat

/-!
# C01 - C03: search tree, sliding extremes, queue
-/

namespace Verif.Props
open Verif Verif.Container

/-! ## C01: the search tree is a multiset -/

/-- A call on the tree. -/
inductive BstOp (V : Type) where
  | insert (v : V)
  | inserts (vs : List V)
  | remove (v : V)

/-- The values a call mentions. -/
def BstOp.values {V : Type} : BstOp V → List V
  | insert v => [v]
  | inserts vs => vs
  | remove v => [v]

/-- The tree after a call. -/
def BstOp.apply {V : Type} (cmp : V → V → Int) (t : Bst V) : BstOp V → Bst V
  | insert v => t.insert cmp v
  | inserts vs => t.inserts cmp vs
  | remove v => (t.remove cmp v).2

/-- Specification: the bag after a call. -/
def BstOp.spec {V L : Type} [DecidableEq L] (key : V → L) (s : Multiset L) : BstOp V → Multiset L
  | insert v => key v ::ₘ s
  | inserts vs => (vs.map key : List L) + s
  | remove v => s.erase (key v)

theorem inserts_keys {V : Type} {cmp : V → V → Int} {L : Type} [LinearOrder L] {c : CmpKey cmp L}
    (vs : List V) (hg : ∀ v ∈ vs, c.good v) (t : Bst V) (hi : Bst.Inv c t) :
    Bst.Inv c (t.inserts cmp vs) ∧
      (t.inserts cmp vs).keys c = ((vs.map c.key : List L) : Multiset L) + t.keys c := by
  induction vs generalizing t with
  | nil => simp [Bst.inserts, hi]
  | cons v vs ih =>
    obtain ⟨h1, h2⟩ := ih (fun w hw => hg w (by simp [hw])) (t.insert cmp v)
      (hi.insert (hg v (by simp)))
    refine ⟨h1, ?_⟩
    have e : (t.inserts cmp (v :: vs)) = ((t.insert cmp v).inserts cmp vs) := rfl
    rw [e, h2, Bst.keys_insert, List.map_cons, ← Multiset.cons_coe, Multiset.add_cons,
      Multiset.cons_add]

/-- **C01.** After any sequence of `Insert`, `Inserts` and `Remove` calls on a new tree, whose
values are ordered by the comparison (no NaN), the stored multiset is the specified one; `Remove`
then reports `true` exactly when an equal value is stored; `Min`/`Max` return nil exactly on the empty
tree and otherwise a least/greatest stored value. -/
theorem C01_bst_is_multiset {V : Type} {cmp : V → V → Int} {L : Type} [LinearOrder L]
    (c : CmpKey cmp L) (ops : List (BstOp V)) (hg : ∀ op ∈ ops, ∀ v ∈ op.values, c.good v) :
    let t := ops.foldl (BstOp.apply cmp) Bst.nil
    let bag := ops.foldl (BstOp.spec c.key) 0
    ((t.toList.map c.key : List L) : Multiset L) = bag ∧
    (∀ v, c.good v → ((t.remove cmp v).1 = true ↔ c.key v ∈ bag)) ∧
    (t.min = none ↔ bag = 0) ∧ (t.max = none ↔ bag = 0) ∧
    (∀ v, t.min = some v → c.key v ∈ bag ∧ ∀ k ∈ bag, c.key v ≤ k) ∧
    (∀ v, t.max = some v → c.key v ∈ bag ∧ ∀ k ∈ bag, k ≤ c.key v) := by
  intro t bag
  have main : Bst.Inv c t ∧ t.keys c = bag := by
    have gen : ∀ (ops : List (BstOp V)), (∀ op ∈ ops, ∀ v ∈ op.values, c.good v) →
        ∀ t : Bst V, Bst.Inv c t → Bst.Inv c (ops.foldl (BstOp.apply cmp) t) ∧
          (ops.foldl (BstOp.apply cmp) t).keys c = ops.foldl (BstOp.spec c.key) (t.keys c) := by
      intro ops
      induction ops with
      | nil => intro _ t hi; exact ⟨hi, rfl⟩
      | cons op ops ih =>
        intro hg t hi
        have hv : ∀ v ∈ op.values, c.good v := hg op (by simp)
        have step : Bst.Inv c (op.apply cmp t) ∧ (op.apply cmp t).keys c = op.spec c.key (t.keys c) := by
          cases op with
          | insert v => exact ⟨hi.insert (hv v (by simp [BstOp.values])), Bst.keys_insert _ _⟩
          | inserts vs => exact inserts_keys vs hv t hi
          | remove v =>
            have hgv := hv v (by simp [BstOp.values])
            exact ⟨hi.remove hgv, (Bst.keys_remove hi hgv).1⟩
        obtain ⟨h1, h2⟩ := ih (fun o ho => hg o (by simp [ho])) _ step.1
        simp only [List.foldl_cons]
        exact ⟨h1, by rw [h2, step.2]⟩
    exact gen ops hg Bst.nil (Bst.Inv.nil c)
  obtain ⟨hi, hk⟩ := main
  refine ⟨hk, fun v hv => ?_, ?_, ?_, ?_, ?_⟩
  · rw [(Bst.keys_remove hi hv).2, hk]
  · rw [(Bst.min_spec hi).1, hk]
  · rw [(Bst.max_spec hi).1, hk]
  · intro v hv
    obtain ⟨_, hm, hle⟩ := (Bst.min_spec hi).2 v hv
    refine ⟨?_, fun k hk' => hle k (by rw [hk]; exact hk')⟩
    rw [← hk]; exact Multiset.mem_coe.mpr (List.mem_map.mpr ⟨v, hm, rfl⟩)
  · intro v hv
    obtain ⟨_, hm, hle⟩ := (Bst.max_spec hi).2 v hv
    refine ⟨?_, fun k hk' => hle k (by rw [hk]; exact hk')⟩
    rw [← hk]; exact Multiset.mem_coe.mpr (List.mem_map.mpr ⟨v, hm, rfl⟩)

/-- Non-vacuity: a history with duplicates and a two-child removal over int64 values. -/
example : ∀ op ∈ ([.inserts [5, 3, 8, 3, 9], .remove 5, .insert 3] : List (BstOp Int)),
    ∀ v ∈ op.values, cmpInt.good v := by simp [cmpInt]
example : (([.inserts [5, 3, 8, 3, 9], .remove 5, .insert 3] : List (BstOp Int)).foldl
    (BstOp.apply compareInt64) Bst.nil).toList = [3, 3, 3, 8, 9] := by decide

/-- **C01** for int64 values: no condition on the values is needed, and the bag holds the values themselves. -/
theorem C01_int64_tree (ops : List (BstOp Int)) :
    let t := ops.foldl (BstOp.apply compareInt64) Bst.nil
    let bag := ops.foldl (BstOp.spec id) 0
    ((t.toList : List Int) : Multiset Int) = bag ∧
    (∀ v, (t.remove compareInt64 v).1 = true ↔ v ∈ bag) ∧
    (∀ v, t.min = some v ↔ v ∈ bag ∧ ∀ k ∈ bag, v ≤ k) ∧
    (∀ v, t.max = some v ↔ v ∈ bag ∧ ∀ k ∈ bag, k ≤ v) := by
  obtain ⟨h1, h2, h3, h4, h5, h6⟩ := C01_bst_is_multiset cmpInt ops (fun _ _ _ _ => trivial)
  refine ⟨by simpa [cmpInt] using h1, fun v => h2 v trivial, fun v => ⟨fun h => h5 v h, fun ⟨hv, hk⟩ => ?_⟩,
    fun v => ⟨fun h => h6 v h, fun ⟨hv, hk⟩ => ?_⟩⟩
  · rcases hm : (ops.foldl (BstOp.apply compareInt64) Bst.nil).min with _ | w
    · have h0 := h3.mp hm
      simp only [cmpInt] at h0
      rw [h0] at hv
      exact absurd hv (Multiset.notMem_zero v)
    · have := h5 w hm
      exact congrArg some (le_antisymm (this.2 v hv) (hk w this.1))
  · rcases hm : (ops.foldl (BstOp.apply compareInt64) Bst.nil).max with _ | w
    · have h0 := h4.mp hm
      simp only [cmpInt] at h0
      rw [h0] at hv
      exact absurd hv (Multiset.notMem_zero v)
    · have := h6 w hm
      exact congrArg some (le_antisymm (hk w this.1) (this.2 v hv))

/-- The hypothesis `good` is needed: with NaN in a float64 tree `Remove` of a value that was never
inserted reports success and drops the NaN. -/
theorem C01_nan_breaks :
    let t : Bst (XF ℚ) := (Bst.nil.insert compareFloat64 (.fin 5)).insert compareFloat64 .nan
    (t.remove compareFloat64 .nan).1 = true ∧
      (t.remove compareFloat64 .nan).2.toList = [.nan] := by
  decide +kernel

/-! ## C02: sliding extremes -/

variable {F : Type} [GoFloat F] {L : Type} [LinearOrder L]

/-- **C02 (Max).** For every period `>= 1` and every NaN-free series, `Max` returns one value per
input, and value `i` equals an element of the window ending at `i` and is `>=` all of it. -/
theorem C02_max_window (o : OrdKey F L) (p : Nat) (hp : 1 ≤ p) (xs : List F)
    (hg : ∀ v ∈ xs, o.good v) :
    ∃ r, Ta.Max p xs = .ok r ∧ r.length = xs.length ∧
      ∀ i v, r[i]? = some v →
        (∃ w ∈ window p i xs, o.key w = o.key v) ∧ ∀ w ∈ window p i xs, o.key w ≤ o.key v := by
  obtain ⟨x, hx⟩ := exists_tabF xs
  have hx' : ∀ i, i < xs.length → xs[i]? = some (x i) := fun i hi => by
    rw [hx]; exact tab_getElem?_lt (by simpa using hi)
  refine ⟨tab xs.length (Ta.maxF p x), ?_, by simp, ?_⟩
  · conv_lhs => rw [hx]
    exact Ta.Max_tab (by omega) _ _
  · intro i v hv
    rw [tab_getElem?] at hv
    split at hv
    · next hi =>
      cases hv
      have hgood : ∀ j ≤ i, o.good (x j) := fun j hj =>
        hg _ (List.mem_of_getElem? (hx' j (by omega)))
      obtain ⟨_, ⟨j, h1, h2, h3⟩, h4⟩ := Ta.maxF_spec o (p := p) (by omega) hgood
      refine ⟨⟨x j, mem_window.mpr ⟨j, h1, h2, hx' j (by omega)⟩, h3.symm⟩, ?_⟩
      intro w hw
      obtain ⟨j, h1, h2, h3⟩ := mem_window.mp hw
      rw [hx' j (by omega)] at h3
      cases h3
      exact h4 j h1 h2
    · simp at hv

/-- **C02 (Min).** The dual statement for `Min`. -/
theorem C02_min_window (o : OrdKey F L) (p : Nat) (hp : 1 ≤ p) (xs : List F)
    (hg : ∀ v ∈ xs, o.good v) :
    ∃ r, Ta.Min p xs = .ok r ∧ r.length = xs.length ∧
      ∀ i v, r[i]? = some v →
        (∃ w ∈ window p i xs, o.key w = o.key v) ∧ ∀ w ∈ window p i xs, o.key v ≤ o.key w := by
  obtain ⟨x, hx⟩ := exists_tabF xs
  have hx' : ∀ i, i < xs.length → xs[i]? = some (x i) := fun i hi => by
    rw [hx]; exact tab_getElem?_lt (by simpa using hi)
  refine ⟨tab xs.length (Ta.minF p x), ?_, by simp, ?_⟩
  · conv_lhs => rw [hx]
    exact Ta.Min_tab (by omega) _ _
  · intro i v hv
    rw [tab_getElem?] at hv
    split at hv
    · next hi =>
      cases hv
      have hgood : ∀ j ≤ i, o.good (x j) := fun j hj =>
        hg _ (List.mem_of_getElem? (hx' j (by omega)))
      obtain ⟨_, ⟨j, h1, h2, h3⟩, h4⟩ := Ta.minF_spec o (p := p) (by omega) hgood
      refine ⟨⟨x j, mem_window.mpr ⟨j, h1, h2, hx' j (by omega)⟩, h3.symm⟩, ?_⟩
      intro w hw
      obtain ⟨j, h1, h2, h3⟩ := mem_window.mp hw
      rw [hx' j (by omega)] at h3
      cases h3
      exact h4 j h1 h2
    · simp at hv

/-- **C02 (panics).** Period 0 panics exactly on non-empty input, a negative period always; with a
positive period neither call ever panics, not even on NaN or infinite values. -/
theorem C02_panic_boundary (p : Int) (xs : List F) :
    ((∃ e, Ta.Max p xs = .error e) ↔ p < 0 ∨ (p = 0 ∧ xs ≠ [])) ∧
    ((∃ e, Ta.Min p xs = .error e) ↔ p < 0 ∨ (p = 0 ∧ xs ≠ [])) := by
  rcases lt_trichotomy p 0 with h | h | h
  · exact ⟨⟨fun _ => .inl h, fun _ => ⟨_, Ta.Max_neg h xs⟩⟩,
      ⟨fun _ => .inl h, fun _ => ⟨_, Ta.Min_neg h xs⟩⟩⟩
  · subst h
    by_cases hx : xs = []
    · subst hx; simp [Ta.Max_nil, Ta.Min_nil]
    · simp [hx, Ta.Max_zero xs hx, Ta.Min_zero xs hx]
  · obtain ⟨q, rfl⟩ := Int.eq_ofNat_of_zero_le h.le
    obtain ⟨x, hx⟩ := exists_tabF xs
    have h1 := Ta.Max_tab (p := q) (by omega) xs.length x
    have h2 := Ta.Min_tab (p := q) (by omega) xs.length x
    rw [← hx] at h1 h2
    constructor <;> constructor
    · rintro ⟨e, he⟩; rw [h1] at he; cases he
    · omega
    · rintro ⟨e, he⟩; rw [h2] at he; cases he
    · omega

/-- Non-vacuity: exact numbers without NaN satisfy the order hypothesis, and the window is as
expected. -/
example : (∀ v ∈ ([.fin 3, .fin 1, .fin 1, .pinf, .fin 2] : List (XF ℚ)), XF.ordKey.good v) ∧
    Ta.Max 2 ([.fin 3, .fin 1, .fin 1, .fin 7, .fin 2] : List (XF ℚ))
      = .ok [.fin 3, .fin 3, .fin 1, .fin 7, .fin 7] := by
  refine ⟨by simp [XF.ordKey], by decide +kernel⟩

/-! ## C03: queue -/

/-- A call on the queue. -/
inductive QOp (V : Type) where
  | enq (v : V)
  | deq

/-- Runs calls on a queue, collecting the dequeued values; stops at a panic. -/
def qRun {V : Type} : Queue V → List (QOp V) → Go (List V × Queue V)
  | q, [] => .ok ([], q)
  | q, .enq v :: ops => qRun (q.enqueue v) ops
  | q, .deq :: ops => do
    let (v, q') ← q.dequeue
    let (out, q'') ← qRun q' ops
    pure (v :: out, q'')

/-- The values enqueued by a history. -/
def enqueued {V : Type} : List (QOp V) → List V
  | [] => []
  | .enq v :: ops => v :: enqueued ops
  | .deq :: ops => enqueued ops

/-- Number of dequeues in a history. -/
def deqs {V : Type} : List (QOp V) → Nat
  | [] => 0
  | .enq _ :: ops => deqs ops
  | .deq :: ops => deqs ops + 1

/-- A history never dequeues more than it has enqueued (starting with `k` stored values). -/
def Balanced {V : Type} : Nat → List (QOp V) → Prop
  | _, [] => True
  | k, .enq _ :: ops => Balanced (k + 1) ops
  | k, .deq :: ops => 0 < k ∧ Balanced (k - 1) ops

theorem qRun_spec {V : Type} (ops : List (QOp V)) (q : Queue V) :
    (Balanced q.list.length ops →
      ∃ q', qRun q ops = .ok ((q.list ++ enqueued ops).take (deqs ops), q') ∧
        q'.list = (q.list ++ enqueued ops).drop (deqs ops)) ∧
    (¬ Balanced q.list.length ops → qRun q ops = .error (.explicit "queue empty")) := by
  induction ops generalizing q with
  | nil => simp [Balanced, qRun, enqueued, deqs]
  | cons op ops ih =>
    cases op with
    | enq v =>
      have := ih (q.enqueue v)
      simpa [Balanced, qRun, enqueued, deqs, Queue.enqueue] using this
    | deq =>
      obtain ⟨l⟩ := q
      cases l with
      | nil => simp [Balanced, qRun, Queue.dequeue]
      | cons v l =>
        obtain ⟨h1, h2⟩ := ih ⟨l⟩
        constructor
        · intro hb
          simp only [Balanced, List.length_cons] at hb
          obtain ⟨q', e1, e2⟩ := h1 (by simpa using hb.2)
          refine ⟨q', ?_, ?_⟩
          · simp [qRun, Queue.dequeue, e1, deqs, enqueued]
          · simpa [deqs, enqueued] using e2
        · intro hb
          have := h2 (by simpa [Balanced] using hb)
          simp [qRun, Queue.dequeue, this]

/-- **C03.** For every history of calls on a new queue: if no dequeue meets an empty queue, the
dequeued values are the first enqueued ones in order, what remains is exactly the rest and `Empty`
tells whether anything remains; otherwise the history panics with "queue empty". -/
theorem C03_queue_fifo {V : Type} (ops : List (QOp V)) :
    (Balanced 0 ops → ∃ q, qRun Queue.new ops = .ok ((enqueued ops).take (deqs ops), q) ∧
        q.list = (enqueued ops).drop (deqs ops) ∧
        (q.empty = true ↔ (enqueued ops).length ≤ deqs ops)) ∧
    (¬ Balanced 0 ops → qRun Queue.new ops = .error (.explicit "queue empty")) := by
  obtain ⟨h1, h2⟩ := qRun_spec ops Queue.new
  refine ⟨fun hb => ?_, h2⟩
  obtain ⟨q, e1, e2⟩ := h1 hb
  refine ⟨q, by simpa [Queue.new] using e1, by simpa [Queue.new] using e2, ?_⟩
  simp only [Queue.empty, e2, Queue.new, List.nil_append, List.length_drop, beq_iff_eq]
  omega

example : Balanced 0 ([.enq 1, .enq 2, .deq, .enq 3, .deq] : List (QOp Nat)) := by
  simp [Balanced]
example : ¬ Balanced 0 ([.enq 1, .deq, .deq] : List (QOp Nat)) := by simp [Balanced]

end Verif.Props
