/-!
# Go execution model: panics, slices, counting loops

These definitions model the Go language, not a particular file of the library; every model
function of the library is written with them.
-/

namespace Verif

/-- The run-time panics the library can raise. -/
inductive Panic where
  /-- slice index (or slice bound) out of range -/
  | index
  /-- integer division or modulo by zero -/
  | divZero
  /-- `make` with a negative length -/
  | makeLen
  /-- nil pointer dereference -/
  | nilDeref
  /-- failed type assertion -/
  | typeAssert
  /-- explicit `panic(..)` in the library -/
  | explicit (msg : String)
  deriving DecidableEq, Repr

/-- Result of a Go call: a value or a panic. -/
abbrev Go := Except Panic

instance [DecidableEq α] : DecidableEq (Go α) := fun a b =>
  match a, b with
  | .ok a, .ok b => if h : a = b then isTrue (h ▸ rfl) else isFalse (by simpa using h)
  | .error a, .error b => if h : a = b then isTrue (h ▸ rfl) else isFalse (by simpa using h)
  | .ok _, .error _ => isFalse (by simp)
  | .error _, .ok _ => isFalse (by simp)

/-- `xs[i]` with Go's bounds check. -/
def idx (xs : List α) (i : Int) : Go α :=
  if 0 ≤ i then
    match xs[i.toNat]? with
    | some v => .ok v
    | none => .error .index
  else .error .index

/-- `xs[i] = v` with Go's bounds check; the slice has a single owner, so the new list is returned. -/
def setAt (xs : List α) (i : Int) (v : α) : Go (List α) :=
  if 0 ≤ i ∧ i < xs.length then .ok (xs.set i.toNat v) else .error .index

/-- `make([]T, n)`: `n` zero values; panics on a negative length. -/
def mk (n : Int) (zero : α) : Go (List α) :=
  if 0 ≤ n then .ok (List.replicate n.toNat zero) else .error .makeLen

/-- `for i := start; ...; i++ { body }` run `n` times. -/
def goForFrom (start : Int) : Nat → σ → (Int → σ → Go σ) → Go σ
  | 0, s, _ => .ok s
  | n + 1, s, body =>
    match body start s with
    | .ok s' => goForFrom (start + 1) n s' body
    | .error p => .error p

/-- `for i := lo; i < hi; i++ { body }`; the body does not change `i`. -/
def goFor (lo hi : Int) (s : σ) (body : Int → σ → Go σ) : Go σ :=
  goForFrom lo (hi - lo).toNat s body

/-- `xs[lo:hi]` with Go's bounds check. Simplification: the capacity is taken to be the length (Go
allows `hi` up to the capacity). -/
def slice (xs : List α) (lo hi : Int) : Go (List α) :=
  if 0 ≤ lo ∧ lo ≤ hi ∧ hi ≤ xs.length then .ok ((xs.take hi.toNat).drop lo.toNat)
  else .error .index

/-- Go's `a % b` on integers (truncated; panics on zero). -/
def goMod (a b : Int) : Go Int :=
  if b = 0 then .error .divZero else .ok (a.tmod b)

/-- Go's `a / b` on integers (truncated; panics on zero). -/
def goDiv (a b : Int) : Go Int :=
  if b = 0 then .error .divZero else .ok (a.tdiv b)

/-! ## Basic lemmas -/

@[simp] theorem ok_bind (a : α) (f : α → Go β) : ((Except.ok a : Go α) >>= f) = f a := rfl
@[simp] theorem error_bind (p : Panic) (f : α → Go β) :
    ((Except.error p : Go α) >>= f) = .error p := rfl
@[simp] theorem pure_eq_ok (a : α) : (pure a : Go α) = .ok a := rfl

theorem idx_nat (xs : List α) (i : Nat) :
    idx xs (i : Int) = match xs[i]? with | some v => .ok v | none => .error .index := by
  simp [idx]

theorem idx_of_getElem? {xs : List α} {i : Nat} {v : α} (h : xs[i]? = some v) :
    idx xs (i : Int) = .ok v := by simp [idx_nat, h]

theorem idx_neg {xs : List α} {i : Int} (h : i < 0) : idx xs i = .error .index := by
  simp [idx, Int.not_le.mpr h]

theorem idx_ge {xs : List α} {i : Int} (h : (xs.length : Int) ≤ i) : idx xs i = .error .index := by
  have h0 : 0 ≤ i := by omega
  have : xs[i.toNat]? = none := by
    apply List.getElem?_eq_none; omega
  simp [idx, h0, this]

theorem idx_ok_iff {xs : List α} {i : Int} {v : α} :
    idx xs i = .ok v ↔ 0 ≤ i ∧ xs[i.toNat]? = some v := by
  unfold idx
  split
  · next h => split <;> simp_all
  · next h => simp [h]

theorem setAt_nat {xs : List α} {i : Nat} {v : α} (h : i < xs.length) :
    setAt xs (i : Int) v = .ok (xs.set i v) := by
  simp [setAt, h]

theorem setAt_ge {xs : List α} {i : Int} {v : α} (h : (xs.length : Int) ≤ i) :
    setAt xs i v = .error .index := by
  simp [setAt]; omega

theorem setAt_neg {xs : List α} {i : Int} {v : α} (h : i < 0) :
    setAt xs i v = .error .index := by
  simp [setAt]; omega

@[simp] theorem mk_nat (n : Nat) (z : α) : mk (n : Int) z = .ok (List.replicate n z) := by
  simp [mk]

theorem mk_neg {n : Int} (z : α) (h : n < 0) : mk n z = .error .makeLen := by
  simp [mk, Int.not_le.mpr h]

@[simp] theorem goForFrom_zero (i : Int) (s : σ) (body) : goForFrom i 0 s body = .ok s := rfl

theorem goForFrom_succ (i : Int) (n : Nat) (s : σ) (body) :
    goForFrom i (n + 1) s body = (body i s >>= fun s' => goForFrom (i + 1) n s' body) := by
  show (match body i s with | .ok s' => _ | .error p => _) = _
  cases body i s <;> rfl

theorem goForFrom_ok {i : Int} {n : Nat} {s s' : σ} {body} (h : body i s = .ok s') :
    goForFrom i (n + 1) s body = goForFrom (i + 1) n s' body := by
  rw [goForFrom_succ, h]; rfl

theorem goForFrom_error {i : Int} {n : Nat} {s : σ} {body} {p : Panic}
    (h : body i s = .error p) : goForFrom i (n + 1) s body = .error p := by
  rw [goForFrom_succ, h]; rfl

/-- Splitting a loop after its first `a` iterations. -/
theorem goForFrom_add (i : Int) (a b : Nat) (s : σ) (body) :
    goForFrom i (a + b) s body
      = (goForFrom i a s body >>= fun s' => goForFrom (i + a) b s' body) := by
  induction a generalizing i s with
  | zero => simp
  | succ a ih =>
    rw [Nat.succ_add, goForFrom_succ, goForFrom_succ]
    cases h : body i s with
    | error p => simp
    | ok s' =>
      simp only [ok_bind]
      rw [ih]
      congr 1; funext s''; congr 1; push_cast; omega

/-- Loop rule: an invariant that every iteration re-establishes holds at the end, and the loop does
not panic. -/
theorem goForFrom_inv {σ : Type _} {i : Int} {n : Nat} {s : σ} {body : Int → σ → Go σ}
    (P : Nat → σ → Prop) (h0 : P 0 s)
    (hs : ∀ k s, k < n → P k s → ∃ s', body (i + k) s = .ok s' ∧ P (k + 1) s') :
    ∃ s', goForFrom i n s body = .ok s' ∧ P n s' := by
  induction n with
  | zero => exact ⟨s, rfl, h0⟩
  | succ n ih =>
    obtain ⟨s1, e1, p1⟩ := ih (fun k s hk => hs k s (by omega))
    obtain ⟨s2, e2, p2⟩ := hs n s1 (by omega) p1
    refine ⟨s2, ?_, p2⟩
    rw [goForFrom_add i n 1, e1, ok_bind, goForFrom_ok e2]; rfl

/-- Loop rule for a loop from `0` to a natural bound. -/
theorem goFor_inv {σ : Type _} {n : Nat} {s : σ} {body : Int → σ → Go σ}
    (P : Nat → σ → Prop) (h0 : P 0 s)
    (hs : ∀ (k : Nat) s, k < n → P k s → ∃ s', body (k : Int) s = .ok s' ∧ P (k + 1) s') :
    ∃ s', goFor 0 n s body = .ok s' ∧ P n s' := by
  unfold goFor
  have : ((n : Int) - 0).toNat = n := by omega
  rw [this]
  refine goForFrom_inv P h0 ?_
  intro k s hk hp
  simpa using hs k s hk hp

/-- Loop rule for a loop between natural bounds. -/
theorem goFor_inv' {σ : Type _} {lo hi : Nat} {s : σ} {body : Int → σ → Go σ} (hlh : lo ≤ hi)
    (P : Nat → σ → Prop) (h0 : P lo s)
    (hs : ∀ (k : Nat) s, lo ≤ k → k < hi → P k s →
      ∃ s', body (k : Int) s = .ok s' ∧ P (k + 1) s') :
    ∃ s', goFor lo hi s body = .ok s' ∧ P hi s' := by
  unfold goFor
  have e : ((hi : Int) - lo).toNat = hi - lo := by omega
  rw [e]
  have := goForFrom_inv (i := (lo : Int)) (n := hi - lo) (s := s) (body := body)
    (fun k s => P (lo + k) s) (by simpa using h0) (by
      intro k s hk hp
      obtain ⟨s', e', p'⟩ := hs (lo + k) s (by omega) (by omega) hp
      exact ⟨s', by simpa using e', by simpa [Nat.add_assoc] using p'⟩)
  obtain ⟨s', e', p'⟩ := this
  refine ⟨s', e', ?_⟩
  have : lo + (hi - lo) = hi := by omega
  simpa [this] using p'

theorem goFor_empty {lo hi : Int} {s : σ} {body} (h : hi ≤ lo) : goFor lo hi s body = .ok s := by
  unfold goFor
  have : (hi - lo).toNat = 0 := by omega
  rw [this]; rfl

/-- A loop whose first iteration panics panics. -/
theorem goFor_error_first {lo hi : Int} {s : σ} {body} {p : Panic} (h : lo < hi)
    (hb : body lo s = .error p) : goFor lo hi s body = .error p := by
  unfold goFor
  obtain ⟨n, hn⟩ : ∃ n, (hi - lo).toNat = n + 1 := ⟨(hi - lo).toNat - 1, by omega⟩
  rw [hn, goForFrom_error hb]

/-- A loop that reaches a panicking iteration panics. -/
theorem goForFrom_inv_error {σ : Type _} {i : Int} {n : Nat} {s : σ} {body : Int → σ → Go σ}
    {p : Panic} (m : Nat) (hm : m < n) (P : Nat → σ → Prop) (h0 : P 0 s)
    (hs : ∀ k s, k < m → P k s → ∃ s', body (i + k) s = .ok s' ∧ P (k + 1) s')
    (he : ∀ s, P m s → body (i + m) s = .error p) :
    goForFrom i n s body = .error p := by
  obtain ⟨s1, e1, p1⟩ := goForFrom_inv (n := m) P h0 hs
  obtain ⟨b, rfl⟩ : ∃ b, n = m + (b + 1) := ⟨n - m - 1, by omega⟩
  rw [goForFrom_add, e1, ok_bind, goForFrom_error (he _ p1)]

/-! ## Tables: the list of the first `n` values of a sequence -/

/-- The slice `[x 0, ..., x (n-1)]`. -/
def tab (n : Nat) (x : Nat → α) : List α := (List.range n).map x

@[simp] theorem tab_length (n : Nat) (x : Nat → α) : (tab n x).length = n := by simp [tab]

@[simp] theorem tab_zero (x : Nat → α) : tab 0 x = [] := rfl

theorem tab_succ (n : Nat) (x : Nat → α) : tab (n + 1) x = tab n x ++ [x n] := by
  simp [tab, List.range_succ]

theorem tab_getElem? (n : Nat) (x : Nat → α) (i : Nat) :
    (tab n x)[i]? = if i < n then some (x i) else none := by
  by_cases h : i < n <;> simp [tab, h]

@[simp] theorem tab_getElem (n : Nat) (x : Nat → α) (i : Nat) (h : i < (tab n x).length) :
    (tab n x)[i] = x i := by simp [tab]

theorem tab_getElem?_lt {n : Nat} {x : Nat → α} {i : Nat} (h : i < n) :
    (tab n x)[i]? = some (x i) := by simp [h]

theorem tab_ext {n : Nat} {x y : Nat → α} (h : ∀ i, i < n → x i = y i) : tab n x = tab n y := by
  apply List.map_congr_left
  intro i hi; exact h i (by simpa using hi)

theorem tab_inj {n : Nat} {x y : Nat → α} (h : tab n x = tab n y) {i : Nat} (hi : i < n) :
    x i = y i := by
  have := congrArg (fun l => l[i]?) h
  simpa [tab_getElem?_lt hi] using this

/-- Every slice is the table of its elements. -/
theorem eq_tab_of_forall {xs : List α} {n : Nat} {x : Nat → α} (hl : xs.length = n)
    (h : ∀ i, i < n → xs[i]? = some (x i)) : xs = tab n x := by
  apply List.ext_getElem?
  intro i
  by_cases hi : i < n
  · rw [tab_getElem?, if_pos hi, h i hi]
  · rw [tab_getElem?, if_neg hi, List.getElem?_eq_none (by omega)]

theorem exists_tab (xs : List α) (h : xs ≠ []) : ∃ x : Nat → α, xs = tab xs.length x := by
  obtain ⟨a, l, rfl⟩ := List.exists_cons_of_ne_nil h
  refine ⟨fun i => ((a :: l)[i]?).getD a, eq_tab_of_forall rfl ?_⟩
  intro i hi
  rw [List.getElem?_eq_getElem hi]; rfl

/-- Every slice over an inhabited type is the table of its elements. -/
theorem eq_tab [Inhabited α] (xs : List α) :
    xs = tab xs.length (fun i => xs[i]?.getD default) := by
  refine eq_tab_of_forall rfl ?_
  intro i hi
  rw [List.getElem?_eq_getElem hi]; rfl

theorem map_tab (f : α → β) (n : Nat) (x : Nat → α) :
    (tab n x).map f = tab n (fun i => f (x i)) := by
  simp [tab, List.map_map, Function.comp_def]

theorem tab_take {n m : Nat} (x : Nat → α) (h : m ≤ n) : (tab n x).take m = tab m x := by
  rw [tab, ← List.map_take, List.take_range, Nat.min_eq_left h]; rfl

theorem replicate_eq_tab (n : Nat) (z : α) : List.replicate n z = tab n (fun _ => z) := by
  exact eq_tab_of_forall (by simp) (fun i hi => by simp [hi])

theorem tab_set (n k : Nat) (x : Nat → α) (v : α) :
    (tab n x).set k v = tab n (fun j => if j = k then v else x j) := by
  apply eq_tab_of_forall
  · simp
  · intro i hi
    rw [List.getElem?_set]
    by_cases h : k = i
    · subst h; simp [hi]
    · have h' : ¬ i = k := fun e => h e.symm
      simp [h, h', hi]

theorem idx_tab {n : Nat} {x : Nat → α} {i : Nat} (h : i < n) :
    idx (tab n x) (i : Int) = .ok (x i) := idx_of_getElem? (tab_getElem?_lt h)

theorem idx_tab_int {n : Nat} {x : Nat → α} {i : Int} (h0 : 0 ≤ i) (h : i < n) :
    idx (tab n x) i = .ok (x i.toNat) := by
  have := idx_tab (x := x) (i := i.toNat) (n := n) (by omega)
  rwa [Int.toNat_of_nonneg h0] at this

theorem idx_tab_ge {n : Nat} {x : Nat → α} {i : Int} (h : (n : Int) ≤ i) :
    idx (tab n x) i = .error .index := idx_ge (by simpa using h)

theorem setAt_tab {n : Nat} {x : Nat → α} {i : Nat} {v : α} (h : i < n) :
    setAt (tab n x) (i : Int) v = .ok (tab n (fun j => if j = i then v else x j)) := by
  rw [setAt_nat (by simpa using h), tab_set]

theorem tab_drop (n m : Nat) (x : Nat → α) : (tab n x).drop m = tab (n - m) (fun j => x (m + j)) := by
  apply eq_tab_of_forall
  · simp
  · intro i hi
    rw [List.getElem?_drop, tab_getElem?_lt (by omega)]

theorem slice_tab {n lo hi : Nat} (x : Nat → α) (h1 : lo ≤ hi) (h2 : hi ≤ n) :
    slice (tab n x) lo hi = .ok (tab (hi - lo) (fun j => x (lo + j))) := by
  rw [slice, if_pos (by simp; omega)]
  simp only [Int.toNat_natCast]
  rw [tab_take x h2, tab_drop]

/-- A table filled up to `k` with `f`, zero value after: the state of `result` after `k`
iterations of the usual `result[i] = ..` loop. -/
def filled (n k : Nat) (f : Nat → α) (z : α) : List α := tab n (fun j => if j < k then f j else z)

@[simp] theorem filled_length (n k : Nat) (f : Nat → α) (z : α) : (filled n k f z).length = n := by
  simp [filled]

theorem filled_zero (n : Nat) (f : Nat → α) (z : α) : List.replicate n z = filled n 0 f z := by
  rw [replicate_eq_tab]; exact tab_ext (fun i _ => by simp)

theorem filled_full (n : Nat) (f : Nat → α) (z : α) : filled n n f z = tab n f :=
  tab_ext (by intro i hi; simp [hi])

theorem setAt_filled {n k : Nat} {f : Nat → α} {z v : α} (h : k < n) (hv : v = f k) :
    setAt (filled n k f z) (k : Int) v = .ok (filled n (k + 1) f z) := by
  unfold filled
  rw [setAt_tab h]
  congr 1
  apply tab_ext
  intro j _
  by_cases h1 : j = k
  · subst h1; simp [hv]
  · have : (j < k + 1) = (j < k) := by simp; omega
    simp [h1, this]

theorem idx_filled {n k j : Nat} {f : Nat → α} {z : α} (h : j < k) (hn : j < n) :
    idx (filled n k f z) (j : Int) = .ok (f j) := by
  unfold filled; rw [idx_tab hn]; simp [h]

/-- The usual loop `for i := 0; i < n; i++ { result[i] = ... }` over auxiliary state. -/
theorem goFor_fill {α σ : Type _} {n : Nat} {z : α} {s : σ} {body : Int → σ × List α → Go (σ × List α)}
    (f : Nat → α) (S : Nat → σ) (h0 : S 0 = s)
    (hb : ∀ k, k < n → body k (S k, filled n k f z) = .ok (S (k + 1), filled n (k + 1) f z)) :
    goFor 0 n (s, List.replicate n z) body = .ok (S n, tab n f) := by
  obtain ⟨s', e, p⟩ := goFor_inv (n := n) (s := (s, List.replicate n z)) (body := body)
    (fun k st => st = (S k, filled n k f z)) (by simp [h0, filled_zero n f z]) (by
      intro k st hk hp; subst hp; exact ⟨_, hb k hk, rfl⟩)
  rw [e, p, filled_full]

/-- The same without auxiliary state. -/
theorem goFor_fill₀ {α : Type _} {n : Nat} {z : α} {body : Int → List α → Go (List α)} (f : Nat → α)
    (hb : ∀ k, k < n → body k (filled n k f z) = .ok (filled n (k + 1) f z)) :
    goFor 0 n (List.replicate n z) body = .ok (tab n f) := by
  obtain ⟨s', e, p⟩ := goFor_inv (n := n) (s := List.replicate n z) (body := body)
    (fun k st => st = filled n k f z) (by simp [filled_zero n f z]) (by
      intro k st hk hp; subst hp; exact ⟨_, hb k hk, rfl⟩)
  rw [e, p, filled_full]

/-- The usual fill loop started at `lo`, on a result whose entries before `lo` keep the zero value. -/
theorem goFor_fill_from {α σ : Type _} {n lo : Nat} {z : α} {s : σ}
    {body : Int → σ × List α → Go (σ × List α)} (f : Nat → α) (S : Nat → σ) (h0 : S lo = s)
    (hf : ∀ j, j < lo → f j = z)
    (hb : ∀ k, lo ≤ k → k < n →
      body k (S k, filled n k f z) = .ok (S (k + 1), filled n (k + 1) f z)) :
    goFor lo n (s, List.replicate n z) body = .ok (S (max lo n), tab n f) := by
  have hstart : List.replicate n z = filled n lo f z := by
    rw [replicate_eq_tab]; exact tab_ext (fun i _ => by
      by_cases h : i < lo
      · simp [h, hf i h]
      · simp [h])
  by_cases hl : lo ≤ n
  · obtain ⟨s', e, p⟩ := goFor_inv' hl (s := (s, List.replicate n z)) (body := body)
      (fun k st => st = (S k, filled n k f z)) (by rw [h0, hstart]) (by
        intro k st hk hk' hp; subst hp; exact ⟨_, hb k hk hk', rfl⟩)
    rw [e, p, filled_full, Nat.max_eq_right hl]
  · rw [goFor_empty (by omega), h0.symm, Nat.max_eq_left (by omega), hstart]
    congr 2
    exact tab_ext (fun i hi => by simp [show i < lo by omega])

/-- The same without auxiliary state. -/
theorem goFor_fill_from₀ {α : Type _} {n lo : Nat} {z : α}
    {body : Int → List α → Go (List α)} (f : Nat → α)
    (hf : ∀ j, j < lo → f j = z)
    (hb : ∀ k, lo ≤ k → k < n → body k (filled n k f z) = .ok (filled n (k + 1) f z)) :
    goFor lo n (List.replicate n z) body = .ok (tab n f) := by
  have hstart : List.replicate n z = filled n lo f z := by
    rw [replicate_eq_tab]; exact tab_ext (fun i _ => by
      by_cases h : i < lo
      · simp [h, hf i h]
      · simp [h])
  by_cases hl : lo ≤ n
  · obtain ⟨s', e, p⟩ := goFor_inv' hl (s := List.replicate n z) (body := body)
      (fun k st => st = filled n k f z) (by rw [hstart]) (by
        intro k st hk hk' hp; subst hp; exact ⟨_, hb k hk hk', rfl⟩)
    rw [e, p, filled_full]
  · rw [goFor_empty (by omega), hstart]
    congr 1
    exact tab_ext (fun i hi => by simp [show i < lo by omega])

/-- A fill loop that panics at iteration `m`. -/
theorem goFor_fill_error₀ {α : Type _} {n m : Nat} {z : α} {e : Panic}
    {body : Int → List α → Go (List α)} (f : Nat → α) (hm : m < n)
    (hb : ∀ k, k < m → body k (filled n k f z) = .ok (filled n (k + 1) f z))
    (he : body m (filled n m f z) = .error e) :
    goFor 0 n (List.replicate n z) body = .error e := by
  unfold goFor
  have : ((n : Int) - 0).toNat = n := by omega
  rw [this]
  refine goForFrom_inv_error m hm (fun k st => st = filled n k f z) (filled_zero n f z) ?_ ?_
  · intro k s hk hp; subst hp; exact ⟨_, by simpa using hb k hk, rfl⟩
  · intro s hp; subst hp; simpa using he

/-- A counting loop that only accumulates a value. -/
theorem goFor_acc {σ : Type _} {lo hi : Nat} {s : σ} {body : Int → σ → Go σ} (hlh : lo ≤ hi)
    (S : Nat → σ) (h0 : S lo = s)
    (hb : ∀ k, lo ≤ k → k < hi → body k (S k) = .ok (S (k + 1))) :
    goFor lo hi s body = .ok (S hi) := by
  obtain ⟨s', e, p⟩ := goFor_inv' hlh (s := s) (body := body)
    (fun k st => st = S k) h0.symm (by
      intro k st hk hk' hp; subst hp; exact ⟨_, hb k hk hk', rfl⟩)
  rw [e, p]

theorem goFor_acc₀ {σ : Type _} {hi : Nat} {s : σ} {body : Int → σ → Go σ}
    (S : Nat → σ) (h0 : S 0 = s)
    (hb : ∀ k, k < hi → body k (S k) = .ok (S (k + 1))) :
    goFor 0 hi s body = .ok (S hi) :=
  goFor_acc (lo := 0) (by omega) S h0 fun k _ h => hb k h

/-- An accumulating loop over a slice of length `n` that reads index `n` panics. -/
theorem goFor_error_at {σ : Type _} {lo hi m : Nat} {s : σ} {body : Int → σ → Go σ} {e : Panic}
    (hlm : lo ≤ m) (hm : m < hi)
    (hb : ∀ (k : Nat) s, lo ≤ k → k < m → ∃ s', body k s = .ok s')
    (he : ∀ s, body m s = .error e) : goFor lo hi s body = .error e := by
  unfold goFor
  have e0 : ((hi : Int) - lo).toNat = hi - lo := by omega
  rw [e0]
  refine goForFrom_inv_error (m - lo) (by omega) (fun _ _ => True) trivial ?_ ?_
  · intro k s hk _
    obtain ⟨s', h⟩ := hb (lo + k) s (by omega) (by omega)
    exact ⟨s', by simpa using h, trivial⟩
  · intro s _
    have : (lo : Int) + ((m - lo : Nat) : Int) = (m : Int) := by omega
    rw [this]; exact he s

theorem goFor_error_at₀ {σ : Type _} {hi m : Nat} {s : σ} {body : Int → σ → Go σ} {e : Panic}
    (hm : m < hi) (hb : ∀ (k : Nat) s, k < m → ∃ s', body k s = .ok s')
    (he : ∀ s, body m s = .error e) : goFor 0 hi s body = .error e :=
  goFor_error_at (lo := 0) (by omega) hm (fun k s _ h => hb k s h) he

theorem zipWith_tab (f : α → β → γ) (n m : Nat) (x : Nat → α) (y : Nat → β) :
    List.zipWith f (tab n x) (tab m y) = tab (min n m) (fun i => f (x i) (y i)) := by
  apply List.ext_getElem?
  intro i
  rw [List.getElem?_zipWith]
  simp only [tab_getElem?]
  by_cases h1 : i < n <;> by_cases h2 : i < m <;> simp [h1, h2, Nat.lt_min]

/-- A loop simulates another one along a map of states. -/
theorem goFor_sim {σ τ : Type _} (f : σ → τ) {lo hi : Int} {body : Int → σ → Go σ}
    {body' : Int → τ → Go τ} (h : ∀ i s s', body i s = .ok s' → body' i (f s) = .ok (f s')) {s r : σ}
    (hr : goFor lo hi s body = .ok r) : goFor lo hi (f s) body' = .ok (f r) := by
  unfold goFor at hr ⊢
  generalize (hi - lo).toNat = n at hr ⊢
  induction n generalizing lo s with
  | zero => cases hr; rfl
  | succ n ih =>
    rw [goForFrom_succ] at hr ⊢
    cases hb : body lo s with
    | error e => rw [hb] at hr; cases hr
    | ok s' =>
      rw [hb] at hr
      rw [h lo s s' hb]
      exact ih hr

/-- An invariant of every step holds after a loop that does not panic. -/
theorem goFor_ok_inv {σ : Type _} {lo hi : Int} {body : Int → σ → Go σ} (P : σ → Prop)
    (h : ∀ i s s', P s → body i s = .ok s' → P s') {s r : σ} (h0 : P s)
    (hr : goFor lo hi s body = .ok r) : P r := by
  unfold goFor at hr
  generalize (hi - lo).toNat = n at hr
  induction n generalizing lo s with
  | zero => cases hr; exact h0
  | succ n ih =>
    rw [goForFrom_succ] at hr
    cases hb : body lo s with
    | error e => rw [hb] at hr; cases hr
    | ok s' => rw [hb] at hr; exact ih (h _ _ _ h0 hb) hr

end Verif
