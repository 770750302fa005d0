import Verif.Conc.Helper
import Verif.Spec
import Mathlib.Data.List.Forall2

/-!
# Properties of `helpertools`: goroutine pipelines (C04–C08)
-/

namespace Verif.Props

open Verif.Conc

variable {V S : Type}

/-- **Whatever the scheduler does, the caller gets `out`**: every execution is finite, none panics or
gets stuck, and in the end every goroutine has ended and the caller's `Chan2Slice` has returned
`out`. -/
def Delivers (s : Cfg (lib V S)) (out : List V) : Prop :=
  ∃ t, AlwaysEndsIn s t ∧ (∀ g ∈ t.procs, act g = .halt) ∧
    t.procs.getLast? = some (G.collected out)

theorem delivers_of {n : Nat} {s : Cfg (lib V S)} {ps qs : List (G V S)} {cs ds : List (Chan V)}
    {out : List V} (hn : Steps n (cfg ps cs) (cfg qs ds)) (hs : s = cfg ps cs)
    (hp : ps.Pairwise fun g h => (∀ c ∈ wr g, c ∉ wr h) ∧ (∀ c ∈ rd g, c ∉ rd h))
    (hh : ∀ g ∈ qs, act g = .halt) (hl : qs.getLast? = some (.collected out)) : Delivers s out := by
  subst hs
  exact ⟨_, alwaysEndsIn (singleUse_of hp) hn (terminal_of_halt hh) (not_panics_of_halt hh), hh, hl⟩

/-! ## C04 -/

theorem run_roundtrip (xs acc : List V) : ∃ n, Steps n
    (cfg [G.source (S := S) xs 0, .collect 0 acc] [.new 0])
    (cfg [.closing [], .collected (acc ++ xs)] [done 0]) := by
  induction xs generalizing acc with
  | nil =>
    refine ⟨2, ?_⟩
    refine Steps.alone 0 0 rfl rfl (.close rfl) ?_
    refine Steps.alone 1 0 rfl rfl (.recvClosed rfl rfl) ?_
    rw [List.append_nil]
    exact .refl
  | cons x xs ih =>
    obtain ⟨n, hn⟩ := ih (acc ++ [x])
    refine ⟨n + 1, Steps.hand 0 1 rfl rfl rfl rfl rfl rfl rfl rfl ?_⟩
    simpa using hn

/-- **C04**: `Chan2Slice(Slice2Chan(xs))` is `xs` under every schedule. -/
theorem C04_roundtrip (xs : List V) :
    Delivers (start (S := S) do Chan2Slice (← Slice2Chan xs)) xs := by
  obtain ⟨n, hn⟩ := run_roundtrip (S := S) xs []
  exact delivers_of hn rfl (by simp [wr, rd]) (by simp [act]) rfl

example : Delivers (start (S := Unit) do Chan2Slice (← Slice2Chan [3, 1, 2])) [3, 1, 2] :=
  C04_roundtrip _

/-! ## C05 -/

theorem run_apply (f : V → V) (xs acc : List V) : ∃ n, Steps n
    (cfg [G.source (S := S) xs 0, .apply f 0 1, .collect 1 acc] [.new 0, .new 0])
    (cfg [.closing [], .closing [], .collected (acc ++ xs.map f)] [done 0, done 0]) := by
  induction xs generalizing acc with
  | nil =>
    refine ⟨4, ?_⟩
    refine Steps.alone 0 0 rfl rfl (.close rfl) ?_
    refine Steps.alone 1 0 rfl rfl (.recvClosed rfl rfl) ?_
    refine Steps.alone 1 1 rfl rfl (.close rfl) ?_
    refine Steps.alone 2 1 rfl rfl (.recvClosed rfl rfl) ?_
    rw [List.map_nil, List.append_nil]
    exact .refl
  | cons x xs ih =>
    obtain ⟨n, hn⟩ := ih (acc ++ [f x])
    refine ⟨n + 2, ?_⟩
    refine Steps.hand 0 1 rfl rfl rfl rfl rfl rfl rfl rfl ?_
    refine Steps.hand 1 2 rfl rfl rfl rfl rfl rfl rfl rfl ?_
    simpa using hn

/-- **C05 (Apply)**. -/
theorem C05_apply (f : V → V) (xs : List V) :
    Delivers (start (S := S) do Chan2Slice (← Apply (← Slice2Chan xs) f)) (xs.map f) := by
  obtain ⟨n, hn⟩ := run_apply (S := S) f xs []
  exact delivers_of hn rfl (by simp [wr, rd]) (by simp [act]) rfl

/-- `Pipe` from channel 0 to channel 1 of capacity `k`, both sides idle. -/
theorem run_pipe (k : Nat) (xs acc : List V) : ∃ n, Steps n
    (cfg [G.source (S := S) xs 0, .pipe 0 1, .collect 1 acc] [.new 0, .new k])
    (cfg [.closing [], .closing [], .collected (acc ++ xs)] [done 0, done k]) := by
  induction xs generalizing acc with
  | nil =>
    refine ⟨4, ?_⟩
    refine Steps.alone 0 0 rfl rfl (.close rfl) ?_
    refine Steps.alone 1 0 rfl rfl (.recvClosed rfl rfl) ?_
    refine Steps.alone 1 1 rfl rfl (.close rfl) ?_
    refine Steps.alone 2 1 rfl rfl (.recvClosed rfl rfl) ?_
    rw [List.append_nil]
    exact .refl
  | cons x xs ih =>
    obtain ⟨n, hn⟩ := ih (acc ++ [x])
    rw [List.append_assoc, List.singleton_append] at hn
    cases k with
    | zero =>
      refine ⟨n + 2, ?_⟩
      refine Steps.hand 0 1 rfl rfl rfl rfl rfl rfl rfl rfl ?_
      refine Steps.hand 1 2 rfl rfl rfl rfl rfl rfl rfl rfl ?_
      exact hn
    | succ k =>
      refine ⟨n + 3, ?_⟩
      refine Steps.hand 0 1 rfl rfl rfl rfl rfl rfl rfl rfl ?_
      refine Steps.alone 1 1 rfl rfl (.send rfl (Nat.succ_pos k)) ?_
      refine Steps.alone 2 1 rfl rfl (.recv rfl) ?_
      exact hn

theorem run_shift (k j : Nat) (fill : V) (hk : j ≤ k) (xs acc : List V) : ∃ n, Steps n
    (cfg [G.source (S := S) xs 0, .shift j fill 0 1, .collect 1 acc] [.new 0, .new k])
    (cfg [.closing [], .closing [], .collected (acc ++ (List.replicate j fill ++ xs))]
      [done 0, done k]) := by
  induction j generalizing acc with
  | zero =>
    obtain ⟨n, hn⟩ := run_pipe (S := S) k xs acc
    exact ⟨n + 1, Steps.silent 1 rfl rfl hn⟩
  | succ j ih =>
    obtain ⟨n, hn⟩ := ih (by omega) (acc ++ [fill])
    refine ⟨n + 2, ?_⟩
    refine Steps.alone 1 1 rfl rfl (.send rfl (by simp [Chan.new]; omega)) ?_
    refine Steps.alone 2 1 rfl rfl (.recv rfl) ?_
    rw [List.append_assoc, List.singleton_append] at hn
    exact hn

/-- **C05 (Shift)**. -/
theorem C05_shift (count : Nat) (fill : V) (xs : List V) :
    Delivers (start (S := S) do Chan2Slice (← Shift (← Slice2Chan xs) count fill))
      (List.replicate count fill ++ xs) := by
  obtain ⟨n, hn⟩ := run_shift (S := S) (0 + count) count fill (by omega) xs []
  exact delivers_of hn rfl (by simp [wr, rd]) (by simp [act]) rfl

theorem run_skip_closed (k : Nat) (acc : List V) : ∃ n, Steps n
    (cfg [G.closing (S := S) [], .skip k 0 1, .collect 1 acc] [done 0, .new 0])
    (cfg [.closing [], .closing [], .collected acc] [done 0, done 0]) := by
  induction k with
  | zero =>
    refine ⟨4, ?_⟩
    refine Steps.silent 1 rfl rfl ?_
    refine Steps.alone 1 0 rfl rfl (.recvClosed rfl rfl) ?_
    refine Steps.alone 1 1 rfl rfl (.close rfl) ?_
    refine Steps.alone 2 1 rfl rfl (.recvClosed rfl rfl) ?_
    exact .refl
  | succ k ih =>
    obtain ⟨n, hn⟩ := ih
    exact ⟨n + 1, Steps.alone 1 0 rfl rfl (.recvClosed rfl rfl) hn⟩

theorem run_skip (k : Nat) (xs acc : List V) : ∃ n, Steps n
    (cfg [G.source (S := S) xs 0, .skip k 0 1, .collect 1 acc] [.new 0, .new 0])
    (cfg [.closing [], .closing [], .collected (acc ++ xs.drop k)] [done 0, done 0]) := by
  induction k generalizing xs with
  | zero =>
    obtain ⟨n, hn⟩ := run_pipe (S := S) 0 xs acc
    exact ⟨n + 1, Steps.silent 1 rfl rfl hn⟩
  | succ k ih =>
    cases xs with
    | nil =>
      obtain ⟨n, hn⟩ := run_skip_closed (V := V) (S := S) (k + 1) acc
      refine ⟨n + 1, Steps.alone 0 0 rfl rfl (.close rfl) ?_⟩
      rw [List.drop_nil, List.append_nil]
      exact hn
    | cons x xs =>
      obtain ⟨n, hn⟩ := ih xs
      exact ⟨n + 1, Steps.hand 0 1 rfl rfl rfl rfl rfl rfl rfl rfl hn⟩

/-- **C05 (Skip)**. -/
theorem C05_skip (count : Nat) (xs : List V) :
    Delivers (start (S := S) do Chan2Slice (← Skip (← Slice2Chan xs) count)) (xs.drop count) := by
  obtain ⟨n, hn⟩ := run_skip (S := S) count xs []
  exact delivers_of hn rfl (by simp [wr, rd]) (by simp [act]) rfl

/-- The values a stateful binary function produces on two lists, up to the shorter one. -/
def scan2 (o : S → V → V → S × V) : S → List V → List V → List V
  | s, x :: xs, y :: ys => (o s x y).2 :: scan2 o (o s x y).1 xs ys
  | _, _, _ => []

/-- Draining the second operand after the first has ended. -/
theorem run_drain_b (ys acc : List V) : ∃ n, Steps n
    (cfg [G.closing (S := S) [], .source ys 1, .drain 1 2, .collect 2 acc] [done 0, .new 0, .new 0])
    (cfg [.closing [], .closing [], .closing [], .collected acc] [done 0, done 0, done 0]) := by
  induction ys with
  | nil =>
    refine ⟨4, ?_⟩
    refine Steps.alone 1 1 rfl rfl (.close rfl) ?_
    refine Steps.alone 2 1 rfl rfl (.recvClosed rfl rfl) ?_
    refine Steps.alone 2 2 rfl rfl (.close rfl) ?_
    refine Steps.alone 3 2 rfl rfl (.recvClosed rfl rfl) ?_
    exact .refl
  | cons y ys ih =>
    obtain ⟨n, hn⟩ := ih
    exact ⟨n + 1, Steps.hand 1 2 rfl rfl rfl rfl rfl rfl rfl rfl hn⟩

/-- Draining the first operand after the second has ended. -/
theorem run_drain_a (xs acc : List V) : ∃ n, Steps n
    (cfg [G.source (S := S) xs 0, .closing [], .drain 0 2, .collect 2 acc] [.new 0, done 0, .new 0])
    (cfg [.closing [], .closing [], .closing [], .collected acc] [done 0, done 0, done 0]) := by
  induction xs with
  | nil =>
    refine ⟨4, ?_⟩
    refine Steps.alone 0 0 rfl rfl (.close rfl) ?_
    refine Steps.alone 2 0 rfl rfl (.recvClosed rfl rfl) ?_
    refine Steps.alone 2 2 rfl rfl (.close rfl) ?_
    refine Steps.alone 3 2 rfl rfl (.recvClosed rfl rfl) ?_
    exact .refl
  | cons y ys ih =>
    obtain ⟨n, hn⟩ := ih
    exact ⟨n + 1, Steps.hand 0 2 rfl rfl rfl rfl rfl rfl rfl rfl hn⟩

theorem run_operate (o : S → V → V → S × V) (s : S) (xs ys acc : List V) : ∃ n, Steps n
    (cfg [G.source xs 0, .source ys 1, .operate o s 0 1 2, .collect 2 acc] [.new 0, .new 0, .new 0])
    (cfg [.closing [], .closing [], .closing [], .collected (acc ++ scan2 o s xs ys)]
      [done 0, done 0, done 0]) := by
  induction xs generalizing ys s acc with
  | nil =>
    obtain ⟨n, hn⟩ := run_drain_b (S := S) ys acc
    refine ⟨n + 2, ?_⟩
    refine Steps.alone 0 0 rfl rfl (.close rfl) ?_
    refine Steps.alone 2 0 rfl rfl (.recvClosed rfl rfl) ?_
    rw [scan2, List.append_nil]
    · exact hn
    · simp
  | cons x xs ih =>
    cases ys with
    | nil =>
      obtain ⟨n, hn⟩ := run_drain_a (S := S) xs acc
      refine ⟨n + 3, ?_⟩
      refine Steps.hand 0 2 rfl rfl rfl rfl rfl rfl rfl rfl ?_
      refine Steps.alone 1 1 rfl rfl (.close rfl) ?_
      refine Steps.alone 2 1 rfl rfl (.recvClosed rfl rfl) ?_
      rw [scan2, List.append_nil]
      · exact hn
      · simp
    | cons y ys =>
      obtain ⟨n, hn⟩ := ih (o s x y).1 ys (acc ++ [(o s x y).2])
      refine ⟨n + 3, ?_⟩
      refine Steps.hand 0 2 rfl rfl rfl rfl rfl rfl rfl rfl ?_
      refine Steps.hand 1 2 rfl rfl rfl rfl rfl rfl rfl rfl ?_
      refine Steps.hand 2 3 rfl rfl rfl rfl rfl rfl rfl rfl ?_
      simpa [scan2] using hn

/-- **C05 (Operate with a stateful closure)**: the closure is called once per pair, in order. -/
theorem C05_operate_stateful (o : S → V → V → S × V) (s : S) (xs ys : List V) :
    Delivers (start do Chan2Slice (← Operate (← Slice2Chan xs) (← Slice2Chan ys) o s))
      (scan2 o s xs ys) := by
  obtain ⟨n, hn⟩ := run_operate o s xs ys []
  exact delivers_of hn rfl (by simp [wr, rd]) (by simp [act]) rfl

theorem scan2_pure (o : V → V → V) (s : S) (xs ys : List V) :
    scan2 (fun s x y => (s, o x y)) s xs ys = List.zipWith o xs ys := by
  induction xs generalizing ys with
  | nil => simp [scan2]
  | cons x xs ih => cases ys <;> simp [scan2, ih]

/-- **C05 (Operate)**: the pointwise result up to the end of the shorter input. -/
theorem C05_operate (o : V → V → V) (xs ys : List V) :
    Delivers (start (S := Unit) do
      Chan2Slice (← Operate (← Slice2Chan xs) (← Slice2Chan ys) (fun s x y => (s, o x y)) ()))
      (List.zipWith o xs ys) := by
  rw [← scan2_pure o ()]
  exact C05_operate_stateful _ _ _ _

example : Delivers (start (S := Unit) do
      Chan2Slice (← Operate (← Slice2Chan [1, 2, 3]) (← Slice2Chan [10, 20])
        (fun s x y => (s, x + y)) ())) [11, 22] := C05_operate (· + ·) _ _

example : Delivers (start (S := Unit) do Chan2Slice (← Shift (← Slice2Chan [5, 6]) 2 0)) [0, 0, 5, 6] :=
  C05_shift 2 0 _

example : Delivers (start (S := Unit) do Chan2Slice (← Skip (← Slice2Chan [5, 6, 7]) 2)) [7] :=
  C05_skip 2 _
/-- RoundDigit.go:15-22 at `T = float64`: the power of ten by repeated multiplication. -/
def RoundDigit {F : Type} [GoMath F] (n : F) (d : Nat) : F :=
  let factor := Nat.rec (motive := fun _ => F) (GoFloat.ofInt 1) (fun _ f => f *. GoFloat.ofInt 10) d
  GoMath.round (n *. factor) /. factor

/-- RoundDigits.go:13-17. -/
def RoundDigits {F : Type} [GoMath F] (c : Nat) (d : Nat) : Setup F S Nat :=
  Apply c fun n => RoundDigit n d

/-- **C05 (RoundDigits)**. -/
theorem C05_roundDigits {F : Type} [GoMath F] (d : Nat) (xs : List F) :
    Delivers (start (S := S) do Chan2Slice (← RoundDigits (← Slice2Chan xs) d))
      (xs.map fun x => RoundDigit x d) :=
  C05_apply _ xs

/-! ## C06 -/

/-- The closure ta.go:275-278 passes to `Operate`: the captured `sum` is updated and returned. -/
def smaTStep {F : Type} [GoFloat F] (sum c b : F) : F × F := (sum +. c -. b, sum +. c -. b)

/-- ta.go:269-283 at `T = float64`, for `period ≥ 0`. -/
def SmaT {F : Type} [GoFloat F] (period : Nat) (c : Nat) : Setup F F Nat := do
  let cs ← Duplicate c 2
  let c1 ← Shift (cs.getD 1 0) period (fl 0)
  let sums ← Operate (cs.getD 0 0) c1 smaTStep (fl 0)
  Apply sums fun sum => sum /. fl period

section SmaT
variable (o : S → V → V → S × V) (f : V → V)

/-- `Drain` of the shifted stream once the input has ended, with `q` still queued. -/
theorem run_sma_drain (p : Nat) (q acc : List V) : ∃ n, Steps n
    (cfg [G.closing (S := S) [], .closing [], .closing [], .drain 3 4, .apply f 4 5, .collect 5 acc]
      [done 0, done 0, done 0, holding p q true, .new 0, .new 0])
    (cfg [.closing [], .closing [], .closing [], .closing [], .closing [], .collected acc]
      [done 0, done 0, done 0, done p, done 0, done 0]) := by
  induction q with
  | nil =>
    refine ⟨5, ?_⟩
    refine Steps.alone 3 3 rfl rfl (.recvClosed rfl rfl) ?_
    refine Steps.alone 3 4 rfl rfl (.close rfl) ?_
    refine Steps.alone 4 4 rfl rfl (.recvClosed rfl rfl) ?_
    refine Steps.alone 4 5 rfl rfl (.close rfl) ?_
    refine Steps.alone 5 5 rfl rfl (.recvClosed rfl rfl) ?_
    exact .refl
  | cons y q ih =>
    obtain ⟨n, hn⟩ := ih
    exact ⟨n + 1, Steps.alone 3 3 rfl rfl (.recv rfl) hn⟩

/-- One element after the other, with the last `p` inputs queued in the shifted stream. -/
theorem run_sma (p : Nat) (s : S) (q xs acc : List V) (hq : q.length = p) (hp : 1 ≤ p) : ∃ n, Steps n
    (cfg [G.source xs 0, .dup 0 [1, 2], .pipe 2 3, .operate o s 1 3 4, .apply f 4 5, .collect 5 acc]
      [.new 0, .new 0, .new 0, holding p q false, .new 0, .new 0])
    (cfg [.closing [], .closing [], .closing [], .closing [], .closing [],
        .collected (acc ++ (scan2 o s xs (q ++ xs)).map f)]
      [done 0, done 0, done 0, done p, done 0, done 0]) := by
  induction xs generalizing s q acc with
  | nil =>
    obtain ⟨n, hn⟩ := run_sma_drain (S := S) f p q acc
    refine ⟨n + 7, ?_⟩
    refine Steps.alone 0 0 rfl rfl (.close rfl) ?_
    refine Steps.alone 1 0 rfl rfl (.recvClosed rfl rfl) ?_
    refine Steps.alone 1 2 rfl rfl (.close rfl) ?_
    refine Steps.alone 1 1 rfl rfl (.close rfl) ?_
    refine Steps.alone 2 2 rfl rfl (.recvClosed rfl rfl) ?_
    refine Steps.alone 2 3 rfl rfl (.close rfl) ?_
    refine Steps.alone 3 1 rfl rfl (.recvClosed rfl rfl) ?_
    rw [scan2, List.map_nil, List.append_nil]
    · exact hn
    · simp
  | cons x xs ih =>
    cases q with
    | nil => simp at hq; omega
    | cons y q =>
      obtain ⟨n, hn⟩ := ih (o s x y).1 (q ++ [x]) (acc ++ [f (o s x y).2]) (by simpa using hq)
      rw [List.append_assoc acc, List.singleton_append, List.append_assoc q, List.singleton_append] at hn
      rw [List.cons_append, scan2, List.map_cons]
      refine ⟨n + 8, ?_⟩
      refine Steps.hand 0 1 rfl rfl rfl rfl rfl rfl rfl rfl ?_
      refine Steps.hand 1 3 rfl rfl rfl rfl rfl rfl rfl rfl ?_
      refine Steps.alone 3 3 rfl rfl (.recv rfl) ?_
      refine Steps.hand 3 4 rfl rfl rfl rfl rfl rfl rfl rfl ?_
      refine Steps.hand 4 5 rfl rfl rfl rfl rfl rfl rfl rfl ?_
      refine Steps.hand 1 2 rfl rfl rfl rfl rfl rfl rfl rfl ?_
      refine Steps.silent 1 rfl rfl ?_
      refine Steps.alone 2 3 rfl rfl (.send rfl ?_) ?_
      · simp only [List.length_cons] at hq
        show q.length < p
        omega
      exact hn

/-- The shifted stream is filled first. -/
theorem run_sma_fill (p j : Nat) (fill : V) (s : S) (xs q : List V) (hq : j + q.length = p)
    (hp : 1 ≤ p) (hall : q = List.replicate q.length fill) : ∃ n, Steps n
    (cfg [G.source xs 0, .dup 0 [1, 2], .shift j fill 2 3, .operate o s 1 3 4, .apply f 4 5,
        .collect 5 []]
      [.new 0, .new 0, .new 0, holding p q false, .new 0, .new 0])
    (cfg [.closing [], .closing [], .closing [], .closing [], .closing [],
        .collected ((scan2 o s xs (List.replicate p fill ++ xs)).map f)]
      [done 0, done 0, done 0, done p, done 0, done 0]) := by
  induction j generalizing q with
  | zero =>
    obtain ⟨n, hn⟩ := run_sma o f p s q xs [] (by omega) hp
    rw [hall, show q.length = p by omega] at hn ⊢
    exact ⟨n + 1, Steps.silent 2 rfl rfl hn⟩
  | succ j ih =>
    obtain ⟨n, hn⟩ := ih (q ++ [fill]) (by simp; omega) (by
      rw [List.length_append, List.length_singleton, List.replicate_succ', ← hall])
    refine ⟨n + 1, Steps.alone 2 3 rfl rfl (.send rfl ?_) hn⟩
    show q.length < p
    omega

end SmaT

/-- **C06**, law-free: under every schedule `SmaT` delivers the running-sum formula, and all
goroutines end. -/
theorem C06_smaT_schedule {F : Type} [GoFloat F] (period : Nat) (hp : 1 ≤ period) (xs : List F) :
    Delivers (start do Chan2Slice (← SmaT period (← Slice2Chan xs)))
      ((scan2 smaTStep (fl 0) xs (List.replicate period (fl 0) ++ xs)).map (· /. fl period)) := by
  obtain ⟨n, hn⟩ := run_sma_fill (smaTStep (F := F)) (fun s => s /. fl period) period period (fl 0)
    (fl 0) xs [] (by simp) hp rfl
  refine delivers_of hn ?_ (by simp [wr, rd]) (by simp [act]) rfl
  show cfg [G.source xs 0, .dup 0 [1, 2], .shift period (fl 0) 2 3,
    .operate smaTStep (fl 0) 1 3 4, .apply (fun s => s /. fl period) 4 5, .collect 5 []]
    [.new 0, .new 0, .new 0, .new (0 + period), .new 0, .new 0] = _
  rw [Nat.zero_add]
  rfl

theorem scan2_length (o : S → V → V → S × V) (s : S) (xs ys : List V) (h : xs.length ≤ ys.length) :
    (scan2 o s xs ys).length = xs.length := by
  induction xs generalizing s ys with
  | nil => simp [scan2]
  | cons x xs ih =>
    cases ys with
    | nil => simp at h
    | cons y ys => simp [scan2, ih _ ys (by simpa using h)]

section Exact
variable {K : Type} [Field K] [LinearOrder K]

theorem scan2_sum (s : K) (xs ys : List K) (i : Nat) (hi : i < xs.length) (hj : i < ys.length) :
    (scan2 smaTStep (XF.fin s) (fins xs) (fins ys))[i]? =
      some (XF.fin (s + (xs.take (i + 1)).sum - (ys.take (i + 1)).sum)) := by
  induction xs generalizing s ys i with
  | nil => simp at hi
  | cons x xs ih =>
    cases ys with
    | nil => simp at hj
    | cons y ys =>
      cases i with
      | zero => simp [fins, scan2, smaTStep]
      | succ i =>
        have := ih (s + x - y) ys i (by simpa using hi) (by simpa using hj)
        simp only [fins, List.map_cons, scan2, smaTStep, XF.add_fin, XF.sub_fin] at this ⊢
        rw [List.getElem?_cons_succ, this]
        simp only [List.take_succ_cons, List.sum_cons]
        congr 2
        ring

/-- **C06**: in exact arithmetic the result has the length of the input and element `i` is the sum
of the last `min period (i+1)` inputs, divided by `period`; no goroutine is left over. -/
theorem C06_smaT [IsStrictOrderedRing K] (period : Nat) (hp : 1 ≤ period) (xs : List K) :
    Delivers (start do Chan2Slice (← SmaT (F := XF K) period (← Slice2Chan (fins xs))))
      (fins (tab xs.length fun i => (window period i xs).sum / period)) := by
  have h := C06_smaT_schedule (F := XF K) period hp (fins xs)
  have e : (fl 0 : XF K) = XF.fin 0 := by simp
  have hrep : List.replicate period (fl 0 : XF K) ++ fins xs = fins (List.replicate period (0 : K) ++ xs) := by
    simp [fins]
  rw [hrep, e] at h
  convert h using 1
  rw [fins_tab]
  symm
  refine eq_tab_of_forall ?_ fun i hi => ?_
  · rw [List.length_map, scan2_length]
    · simp [fins]
    · simp [fins]
  · rw [List.getElem?_map, scan2_sum _ _ _ _ hi (by simp; omega)]
    have hw : (window period i xs).sum =
        (xs.take (i + 1)).sum - (xs.take (i + 1 - period)).sum := by
      rw [window, eq_sub_iff_add_eq, add_comm]
      have := List.sum_take_add_sum_drop (xs.take (i + 1)) (i + 1 - period)
      rw [List.take_take, Nat.min_eq_left (by omega)] at this
      exact this
    have ht : ((List.replicate period (0 : K) ++ xs).take (i + 1)).sum =
        (xs.take (i + 1 - period)).sum := by
      rw [List.take_append, List.sum_append]
      simp
    rw [hw, ht]
    have hp' : (period : K) ≠ 0 := by
      have : (0 : K) < period := by exact_mod_cast hp
      exact this.ne'
    simp only [Option.map_some, XF.fl_nat, zero_add]
    rw [XF.div_fin hp']

example : Delivers (start do Chan2Slice (← SmaT (F := XF ℚ) 2 (← Slice2Chan (fins [1, 3, 5]))))
    (fins [1 / 2, 2, 4]) := by
  have := C06_smaT (K := ℚ) 2 (by omega) [1, 3, 5]
  have e : fins (tab [(1 : ℚ), 3, 5].length fun i => (window 2 i [(1 : ℚ), 3, 5]).sum / (2 : Nat)) =
      fins [1 / 2, 2, 4] := by decide +kernel
  rwa [e] at this

end Exact

/-! ## C07 -/

/-- The network of a caller that duplicates `Slice2Chan(xs)` and then applies `Chan2Slice` to the
outputs one after the other. -/
def dupThenDrain (xs : List V) (count : Nat) : Cfg (lib V S) :=
  start do
    let outs ← Duplicate (← Slice2Chan xs) count
    goStart (.drainAll outs [] [])

/-- The network of a caller that duplicates `Slice2Chan(xs)` and gives every output to a goroutine
of its own running `Chan2Slice`. -/
def dupThenFan (xs : List V) (count : Nat) : Cfg (lib V S) :=
  start do
    let outs ← Duplicate (← Slice2Chan xs) count
    outs.forM fun c => Chan2Slice c

theorem makeChans_eq (cap count : Nat) (ps : List (G V S)) (cs : List (Chan V)) :
    (makeChans cap count : Setup V S (List Nat)) (ps, cs) =
      (List.range' cs.length count, (ps, cs ++ List.replicate count (.new cap))) := by
  induction count generalizing cs with
  | zero => simp [makeChans, pure, StateT.pure]
  | succ n ih =>
    have h : (makeChans cap n : Setup V S (List Nat)) (ps, cs ++ [Chan.new cap]) = _ :=
      ih (cs ++ [Chan.new cap])
    show (_ :: ((makeChans cap n : Setup V S (List Nat)) (ps, cs ++ [Chan.new cap])).1,
      ((makeChans cap n : Setup V S (List Nat)) (ps, cs ++ [Chan.new cap])).2) = _
    rw [h]
    simp [List.range'_succ, List.replicate_succ]

theorem dupThenDrain_eq (xs : List V) (count : Nat) : dupThenDrain (S := S) xs count =
    cfg [.source xs 0, .dup 0 (List.range' 1 count), .drainAll (List.range' 1 count) [] []]
      (.new 0 :: List.replicate count (.new 0)) := by
  have h := makeChans_eq (V := V) (S := S) 0 count [.source xs 0] [.new 0]
  have e : dupThenDrain (S := S) xs count =
      (fun r : List Nat × (List (G V S) × List (Chan V)) =>
        cfg (r.2.1 ++ [.dup 0 r.1] ++ [.drainAll r.1 [] []]) r.2.2)
      ((makeChans 0 count : Setup V S (List Nat)) ([.source xs 0], [.new 0])) := rfl
  rw [e, h]
  rfl

theorem forM_collect (cs : List Nat) (ps : List (G V S)) (ch : List (Chan V)) :
    (cs.forM fun c => (Chan2Slice c : Setup V S Unit)) (ps, ch) =
      ((), (ps ++ cs.map fun c => .collect c [], ch)) := by
  induction cs generalizing ps with
  | nil => simp [pure, StateT.pure]
  | cons c cs ih =>
    have := ih (ps ++ [.collect c []])
    rw [List.append_assoc] at this
    exact this

theorem dupThenFan_eq (xs : List V) (count : Nat) : dupThenFan (S := S) xs count =
    cfg (.source xs 0 :: .dup 0 (List.range' 1 count) :: tab count fun i => .collect (i + 1) [])
      (.new 0 :: tab count fun _ => .new 0) := by
  have h := makeChans_eq (V := V) (S := S) 0 count [.source xs 0] [.new 0]
  have e : dupThenFan (S := S) xs count =
      (fun r : List Nat × (List (G V S) × List (Chan V)) =>
        (fun q : Unit × (List (G V S) × List (Chan V)) => cfg q.2.1 q.2.2)
          ((r.1.forM fun c => (Chan2Slice c : Setup V S Unit)) (r.2.1 ++ [.dup 0 r.1], r.2.2)))
      ((makeChans 0 count : Setup V S (List Nat)) ([.source xs 0], [.new 0])) := rfl
  rw [e, h]
  simp only [forM_collect]
  have h1 : List.map (fun c => G.collect (V := V) (S := S) c []) (List.range' 1 count) =
      tab count fun i => .collect (i + 1) [] := by
    rw [List.range'_eq_map_range, List.map_map, tab]
    exact List.map_congr_left fun i _ => by simp [Nat.add_comm]
  have h2 : List.replicate count (Chan.new (V := V) 0) = tab count fun _ => .new 0 := by
    rw [tab, List.map_const', List.length_range]
  simp [h1, h2]

/-- Why a goroutine cannot move: it has ended, or receives from an open empty channel nobody is
sending on, or sends on an open unbuffered channel. -/
def Blocked (ps : List (G V S)) (cs : List (Chan V)) (g : G V S) : Prop :=
  act g = .halt ∨
  (∃ c k ch, act g = .recv c k ∧ cs[c]? = some ch ∧ ch.buf = [] ∧ ch.closed = false ∧
    ∀ h ∈ ps, ∀ v g', act h ≠ .send c v g') ∨
  (∃ c v g' ch, act g = .send c v g' ∧ cs[c]? = some ch ∧ ch.cap = 0 ∧ ch.closed = false)

theorem terminal_of_blocked {ps : List (G V S)} {cs : List (Chan V)} (h : ∀ g ∈ ps, Blocked ps cs g) :
    Terminal (cfg ps cs) := by
  intro s' hs
  have key : ∀ (i : Nat) (g : G V S), (cfg ps cs).procs[i]? = some g → Blocked ps cs g :=
    fun i g hi => h g (List.mem_of_getElem? hi)
  cases hs with
  | tau hi ha =>
    replace ha : act _ = _ := ha
    rcases key _ _ hi with hb | ⟨_, _, _, hb, _⟩ | ⟨_, _, _, _, hb, _⟩ <;> rw [hb] at ha <;> cases ha
  | @chan i g g' c ch ch' hi hc hs =>
    replace hs : CStep (act g) c ch ch' g' := hs
    replace hc : cs[c]? = some ch := hc
    rcases key _ _ hi with hb | ⟨d, k, e, hb, he, h1, h2, _⟩ | ⟨d, v, g'', e, hb, he, h1, h2⟩ <;>
      rw [hb] at hs
    · cases hs
    · cases hs with
      | recv hbuf => rw [hc] at he; cases he; rw [h1] at hbuf; cases hbuf
      | recvClosed hbuf hcl => rw [hc] at he; cases he; rw [h2] at hcl; cases hcl
    · cases hs with
      | send hopen hroom => rw [hc] at he; cases he; omega
  | @sync i j g h' c v g' k ch hi hj ha hb hc h1 h2 h3 =>
    replace ha : act g = _ := ha
    replace hb : act h' = _ := hb
    rcases key _ _ hj with hb' | ⟨d, k', e, hb', he, _, _, hno⟩ | ⟨d, v, g'', e, hb', he, h1, h2⟩ <;>
      rw [hb'] at hb <;> cases hb
    exact hno g (List.mem_of_getElem? hi) _ _ ha

theorem not_panics_of_blocked {ps : List (G V S)} {cs : List (Chan V)}
    (h : ∀ g ∈ ps, Blocked ps cs g) : ¬ Panics (cfg ps cs) := by
  rintro ⟨i, g, c, ch, hi, hc, hcl, hact⟩
  replace hc : cs[c]? = some ch := hc
  replace hact : (∃ v g', act g = .send c v g') ∨ ∃ g', act g = .close c g' := hact
  rcases h g (List.mem_of_getElem? hi) with hb | ⟨d, k, e, hb, _⟩ | ⟨d, v, g'', e, hb, he, _, h2⟩ <;>
    rw [hb] at hact <;> rcases hact with ⟨v', g', ha⟩ | ⟨g', ha⟩ <;> cases ha
  rw [hc] at he
  cases he
  rw [h2] at hcl
  cases hcl

/-- A source that nobody reads any more: closed if it had nothing left to send, else blocked. -/
def settled (xs : List V) (c : Nat) : G V S := if xs.isEmpty then .closing [] else .source xs c

/-- Its channel. -/
def settledChan (xs : List V) : Chan V := if xs.isEmpty then done 0 else .new 0

/-- **C07 refuted**: with two or more outputs and a non-empty input, draining the outputs one after
the other deadlocks under every schedule: the caller waits for ever in its first `Chan2Slice`, having
received one element, and the duplicating goroutine waits for ever at the second output. -/
theorem C07_sequential_refuted (x : V) (xs : List V) (k : Nat) :
    AlwaysEndsIn (dupThenDrain (S := S) (x :: xs) (k + 2))
      (cfg [settled xs 0, .dupSend 0 (List.range' 1 (k + 2)) (List.range' 2 (k + 1)) x,
          .drainAll (List.range' 1 (k + 2)) [x] []]
        (settledChan xs :: List.replicate (k + 2) (.new 0))) := by
  rw [dupThenDrain_eq]
  have hrange : List.range' 1 (k + 2) = 1 :: 2 :: List.range' 3 k := by
    simp [List.range'_succ]
  have hrange2 : List.range' 2 (k + 1) = 2 :: List.range' 3 k := by simp [List.range'_succ]
  rw [hrange, hrange2]
  have hn : ∃ n, Steps n (cfg [G.source (S := S) (x :: xs) 0, .dup 0 (1 :: 2 :: List.range' 3 k),
        .drainAll (1 :: 2 :: List.range' 3 k) [] []] (.new 0 :: List.replicate (k + 2) (.new 0)))
      (cfg [settled xs 0, .dupSend 0 (1 :: 2 :: List.range' 3 k) (2 :: List.range' 3 k) x,
          .drainAll (1 :: 2 :: List.range' 3 k) [x] []]
        (settledChan xs :: List.replicate (k + 2) (.new 0))) := by
    cases xs with
    | nil =>
      refine ⟨3, ?_⟩
      refine Steps.hand 0 1 rfl rfl rfl rfl rfl rfl rfl rfl ?_
      refine Steps.hand 1 2 rfl rfl rfl rfl rfl rfl rfl rfl ?_
      refine Steps.alone 0 0 rfl rfl (.close rfl) ?_
      exact .refl
    | cons y ys =>
      refine ⟨2, ?_⟩
      refine Steps.hand 0 1 rfl rfl rfl rfl rfl rfl rfl rfl ?_
      refine Steps.hand 1 2 rfl rfl rfl rfl rfl rfl rfl rfl ?_
      exact .refl
  obtain ⟨n, hn⟩ := hn
  have hb : ∀ g ∈ [settled (S := S) xs 0, .dupSend 0 (1 :: 2 :: List.range' 3 k) (2 :: List.range' 3 k) x,
      .drainAll (1 :: 2 :: List.range' 3 k) [x] []],
      Blocked [settled (S := S) xs 0, .dupSend 0 (1 :: 2 :: List.range' 3 k) (2 :: List.range' 3 k) x,
        .drainAll (1 :: 2 :: List.range' 3 k) [x] []]
        (settledChan xs :: List.replicate (k + 2) (.new 0)) g := by
    intro g hg
    simp only [List.mem_cons, List.not_mem_nil, or_false] at hg
    rcases hg with rfl | rfl | rfl
    · cases xs with
      | nil => exact .inl rfl
      | cons y ys => exact .inr (.inr ⟨_, _, _, _, rfl, rfl, rfl, rfl⟩)
    · exact .inr (.inr ⟨_, _, _, _, rfl, rfl, rfl, rfl⟩)
    · refine .inr (.inl ⟨_, _, _, rfl, rfl, rfl, rfl, ?_⟩)
      intro h hh v g' ha
      simp only [List.mem_cons, List.not_mem_nil, or_false] at hh
      rcases hh with rfl | rfl | rfl
      · cases xs <;> cases ha
      · cases ha
      · cases ha
  refine alwaysEndsIn (singleUse_of ?_) hn (terminal_of_blocked hb) (not_panics_of_blocked hb)
  simp [wr, rd, List.mem_range']
  omega

/-- The caller of C07 has come back from all its `Chan2Slice` calls with these results. -/
def Drained (s : Cfg (lib V S)) (res : List (List V)) : Prop :=
  ∃ t, AlwaysEndsIn s t ∧ (∀ g ∈ t.procs, act g = .halt) ∧
    t.procs.getLast? = some (G.drainAll [] [] res)

theorem set_same {α : Type} {l : List α} {i : Nat} {a : α} (h : l[i]? = some a) : l.set i a = l := by
  apply List.ext_getElem?
  intro j
  rw [List.getElem?_set]
  split
  · next hij =>
    subst hij
    rw [if_pos (List.getElem?_eq_some_iff.mp h).1, h]
  · rfl

theorem run_dup_one (xs acc : List V) : ∃ n, Steps n
    (cfg [G.source (S := S) xs 0, .dup 0 [1], .drainAll [1] acc []] [.new 0, .new 0])
    (cfg [.closing [], .closing [], .drainAll [] [] [acc ++ xs]] [done 0, done 0]) := by
  induction xs generalizing acc with
  | nil =>
    refine ⟨4, ?_⟩
    refine Steps.alone 0 0 rfl rfl (.close rfl) ?_
    refine Steps.alone 1 0 rfl rfl (.recvClosed rfl rfl) ?_
    refine Steps.alone 1 1 rfl rfl (.close rfl) ?_
    refine Steps.alone 2 1 rfl rfl (.recvClosed rfl rfl) ?_
    rw [List.append_nil]
    exact .refl
  | cons x xs ih =>
    obtain ⟨n, hn⟩ := ih (acc ++ [x])
    rw [List.append_assoc, List.singleton_append] at hn
    refine ⟨n + 3, ?_⟩
    refine Steps.hand 0 1 rfl rfl rfl rfl rfl rfl rfl rfl ?_
    refine Steps.hand 1 2 rfl rfl rfl rfl rfl rfl rfl rfl ?_
    refine Steps.silent 1 rfl rfl ?_
    exact hn

theorem run_dup_zero (xs : List V) : ∃ n, Steps n
    (cfg [G.source (S := S) xs 0, .dup 0 [], .drainAll [] [] []] [.new 0])
    (cfg [.closing [], .closing [], .drainAll [] [] []] [done 0]) := by
  induction xs with
  | nil =>
    refine ⟨2, ?_⟩
    refine Steps.alone 0 0 rfl rfl (.close rfl) ?_
    refine Steps.alone 1 0 rfl rfl (.recvClosed rfl rfl) ?_
    exact .refl
  | cons x xs ih =>
    obtain ⟨n, hn⟩ := ih
    refine ⟨n + 2, ?_⟩
    refine Steps.hand 0 1 rfl rfl rfl rfl rfl rfl rfl rfl ?_
    refine Steps.silent 1 rfl rfl ?_
    exact hn

/-- The deferred closes of `Duplicate`, last output first. -/
theorem run_closing (count j : Nat) (hj : j ≤ count) (g : G V S) (gs : List (G V S)) (c0 : Chan V) :
    ∃ n, Steps n
    (cfg (g :: .closing (List.range' 1 j).reverse :: gs)
      (c0 :: tab count fun i => if i < j then .new 0 else done 0))
    (cfg (g :: .closing [] :: gs) (c0 :: tab count fun _ => done 0)) := by
  induction j with
  | zero => exact ⟨0, by simpa using Steps.refl⟩
  | succ j ih =>
    obtain ⟨n, hn⟩ := ih (by omega)
    refine ⟨n + 1, ?_⟩
    have hr : (List.range' 1 (j + 1)).reverse = (j + 1) :: (List.range' 1 j).reverse := by
      rw [List.range'_concat]; simp [Nat.add_comm]
    rw [hr]
    refine Steps.alone 1 (j + 1) (ch := .new 0) rfl ?_ (.close rfl) ?_
    · rw [List.getElem?_cons_succ, tab_getElem?_lt (by omega)]; simp
    · have : (c0 :: tab count fun i => if i < j + 1 then Chan.new (V := V) 0 else done 0).set (j + 1)
          { cap := 0, buf := [], closed := true } =
          c0 :: tab count fun i => if i < j then .new 0 else done 0 := by
        rw [List.set_cons_succ, tab_set]
        congr 1
        refine tab_ext fun i hi => ?_
        by_cases h1 : i = j
        · subst h1; simp [done]
        · simp only [h1, if_false]
          by_cases h2 : i < j
          · rw [if_pos (by omega), if_pos h2]
          · rw [if_neg (by omega), if_neg h2]
      rw [← this] at hn
      exact hn

/-- Draining closed outputs. -/
theorem run_drain_closed (count j : Nat) (hj : j ≤ count) (res : List (List V)) : ∃ n, Steps n
    (cfg [G.closing (S := S) [], .closing [], .drainAll (List.range' (count - j + 1) j) [] res]
      (done 0 :: tab count fun _ => done 0))
    (cfg [.closing [], .closing [], .drainAll [] [] (res ++ List.replicate j [])]
      (done 0 :: tab count fun _ => done 0)) := by
  induction j generalizing res with
  | zero => exact ⟨0, by simpa using Steps.refl⟩
  | succ j ih =>
    obtain ⟨n, hn⟩ := ih (by omega) (res ++ [[]])
    refine ⟨n + 1, ?_⟩
    rw [List.range'_succ]
    have hget : (done (V := V) 0 :: tab count fun _ => done 0)[count - (j + 1) + 1]? = some (done 0) := by
      rw [List.getElem?_cons_succ, tab_getElem?_lt (by omega)]
    refine Steps.alone 2 (count - (j + 1) + 1) rfl hget (.recvClosed rfl rfl) ?_
    rw [set_same hget]
    rw [List.append_assoc, List.singleton_append, show count - j + 1 = count - (j + 1) + 1 + 1 by omega] at hn
    exact hn

theorem drained_of {n : Nat} {s : Cfg (lib V S)} {ps qs : List (G V S)} {cs ds : List (Chan V)}
    {res : List (List V)} (hn : Steps n (cfg ps cs) (cfg qs ds)) (hs : s = cfg ps cs)
    (hp : ps.Pairwise fun g h => (∀ c ∈ wr g, c ∉ wr h) ∧ (∀ c ∈ rd g, c ∉ rd h))
    (hh : ∀ g ∈ qs, act g = .halt) (hl : qs.getLast? = some (.drainAll [] [] res)) : Drained s res := by
  subst hs
  exact ⟨_, alwaysEndsIn (singleUse_of hp) hn (terminal_of_halt hh) (not_panics_of_halt hh), hh, hl⟩

/-- **C07 (partial)**: sequential draining works for at most one output and for an empty input. It
is missing the case of two or more outputs of a non-empty input, where the claim is false
(`C07_sequential_refuted`). -/
theorem C07_sequential_partial (xs : List V) (count : Nat) (h : count ≤ 1 ∨ xs = []) :
    Drained (dupThenDrain (S := S) xs count) (List.replicate count xs) := by
  rw [dupThenDrain_eq]
  rcases h with h | rfl
  · rcases Nat.le_one_iff_eq_zero_or_eq_one.mp h with rfl | rfl
    · obtain ⟨n, hn⟩ := run_dup_zero (S := S) xs
      exact drained_of hn rfl (by simp [wr, rd]) (by simp [act]) rfl
    · obtain ⟨n, hn⟩ := run_dup_one (S := S) xs []
      exact drained_of hn rfl (by simp [wr, rd]) (by simp [act]) rfl
  · obtain ⟨n1, h1⟩ := run_closing (S := S) count count le_rfl (.closing [])
      [.drainAll (List.range' 1 count) [] []] (done (V := V) 0)
    obtain ⟨n2, h2⟩ := run_drain_closed (V := V) (S := S) count count le_rfl []
    rw [Nat.sub_self] at h2
    have h3 := h1.trans h2
    have h4 : Steps (n1 + n2 + 1 + 1) (cfg [G.source (V := V) (S := S) [] 0, .dup 0 (List.range' 1 count),
        .drainAll (List.range' 1 count) [] []] (.new 0 :: List.replicate count (.new 0)))
        (cfg [.closing [], .closing [], .drainAll [] [] ([] ++ List.replicate count [])]
          (done 0 :: tab count fun _ => done 0)) := by
      refine Steps.alone 0 0 rfl rfl (.close rfl) ?_
      refine Steps.alone 1 0 rfl rfl (.recvClosed rfl rfl) ?_
      have e : (List.replicate count (Chan.new (V := V) 0)) =
          tab count fun i => if i < count then .new 0 else done 0 := by
        rw [replicate_eq_tab]
        exact tab_ext fun i hi => by rw [if_pos hi]
      rw [e]
      exact h3
    refine drained_of h4 rfl ?_ (by simp [act]) rfl
    simp [wr, rd, List.mem_range']
    omega

/-- Serving the remaining outputs with one value. -/
theorem run_serve (count j : Nat) (hj : j ≤ count) (v : V) (acc : List V) (g : G V S) : ∃ n, Steps n
    (cfg (g :: .dupSend 0 (List.range' 1 count) (List.range' (count - j + 1) j) v ::
        tab count fun i => .collect (i + 1) (if i < count - j then acc ++ [v] else acc))
      (.new 0 :: tab count fun _ => .new 0))
    (cfg (g :: .dup 0 (List.range' 1 count) :: tab count fun i => .collect (i + 1) (acc ++ [v]))
      (.new 0 :: tab count fun _ => .new 0)) := by
  induction j with
  | zero =>
    refine ⟨1, Steps.silent 1 rfl rfl ?_⟩
    have : (tab count fun i => G.collect (S := S) (i + 1) (if i < count - 0 then acc ++ [v] else acc)) =
        tab count fun i => .collect (i + 1) (acc ++ [v]) :=
      tab_ext fun i hi => by rw [if_pos (by omega)]
    rw [this]
    exact .refl
  | succ j ih =>
    obtain ⟨n, hn⟩ := ih (by omega)
    refine ⟨n + 1, ?_⟩
    rw [List.range'_succ]
    set m := count - (j + 1) with hm
    have hmj : count - j = m + 1 := by omega
    rw [hmj] at hn
    have hget : (g :: .dupSend 0 (List.range' 1 count) ((m + 1) :: List.range' (m + 1 + 1) j) v ::
        tab count fun i => G.collect (S := S) (i + 1) (if i < m then acc ++ [v] else acc))[m + 2]? =
        some (.collect (m + 1) acc) := by
      rw [List.getElem?_cons_succ, List.getElem?_cons_succ, tab_getElem?_lt (by omega)]
      simp
    refine Steps.hand 1 (m + 2) (c := m + 1) (ch := .new 0) rfl hget rfl rfl ?_ rfl rfl rfl ?_
    · rw [List.getElem?_cons_succ, tab_getElem?_lt (by omega)]
    · have : (tab count fun i => G.collect (S := S) (i + 1) (if i < m + 1 then acc ++ [v] else acc)) =
          (tab count fun i => G.collect (i + 1) (if i < m then acc ++ [v] else acc)).set m
            (.collect (m + 1) (acc ++ [v])) := by
        rw [tab_set]
        refine tab_ext fun i hi => ?_
        by_cases h1 : i = m
        · subst h1; simp
        · simp only [h1, if_false]
          congr 1
          by_cases h2 : i < m
          · rw [if_pos (by omega), if_pos h2]
          · rw [if_neg (by omega), if_neg h2]
      rw [this] at hn
      exact hn

/-- The consumers notice one after the other that their channel is closed. -/
theorem run_fan_end (count j : Nat) (hj : j ≤ count) (acc : List V) : ∃ n, Steps n
    (cfg (G.closing (S := S) [] :: .closing [] ::
        tab count fun i => if i < count - j then .collected acc else .collect (i + 1) acc)
      (done 0 :: tab count fun _ => done 0))
    (cfg (.closing [] :: .closing [] :: tab count fun _ => .collected acc)
      (done 0 :: tab count fun _ => done 0)) := by
  induction j with
  | zero =>
    refine ⟨0, ?_⟩
    have : (tab count fun i => if i < count - 0 then G.collected (S := S) acc else .collect (i + 1) acc) =
        tab count fun _ => .collected acc := tab_ext fun i hi => by rw [if_pos (by omega)]
    rw [this]
    exact .refl
  | succ j ih =>
    obtain ⟨n, hn⟩ := ih (by omega)
    refine ⟨n + 1, ?_⟩
    set m := count - (j + 1) with hm
    have hmj : count - j = m + 1 := by omega
    rw [hmj] at hn
    have hget : (G.closing (S := S) [] :: .closing [] ::
        tab count fun i => if i < m then G.collected acc else .collect (i + 1) acc)[m + 2]? =
        some (.collect (m + 1) acc) := by
      rw [List.getElem?_cons_succ, List.getElem?_cons_succ, tab_getElem?_lt (by omega)]
      simp
    have hch : (done (V := V) 0 :: tab count fun _ => done 0)[m + 1]? = some (done 0) := by
      rw [List.getElem?_cons_succ, tab_getElem?_lt (by omega)]
    refine Steps.alone (m + 2) (m + 1) hget hch (.recvClosed rfl rfl) ?_
    rw [set_same hch]
    have : (tab count fun i => if i < m + 1 then G.collected (S := S) acc else .collect (i + 1) acc) =
        (tab count fun i => if i < m then G.collected acc else .collect (i + 1) acc).set m
          (.collected acc) := by
      rw [tab_set]
      refine tab_ext fun i hi => ?_
      by_cases h1 : i = m
      · subst h1; simp
      · simp only [h1, if_false]
        by_cases h2 : i < m
        · rw [if_pos (by omega), if_pos h2]
        · rw [if_neg (by omega), if_neg h2]
    rw [this] at hn
    exact hn

theorem run_fan (count : Nat) (xs acc : List V) : ∃ n, Steps n
    (cfg (G.source (S := S) xs 0 :: .dup 0 (List.range' 1 count) ::
        tab count fun i => .collect (i + 1) acc)
      (.new 0 :: tab count fun _ => .new 0))
    (cfg (.closing [] :: .closing [] :: tab count fun _ => .collected (acc ++ xs))
      (done 0 :: tab count fun _ => done 0)) := by
  induction xs generalizing acc with
  | nil =>
    obtain ⟨n1, h1⟩ := run_closing (S := S) count count le_rfl (.closing [])
      (tab count fun i => .collect (i + 1) acc) (done (V := V) 0)
    obtain ⟨n2, h2⟩ := run_fan_end (S := S) count count le_rfl acc
    rw [Nat.sub_self] at h2
    refine ⟨n1 + n2 + 1 + 1, ?_⟩
    refine Steps.alone 0 0 rfl rfl (.close rfl) ?_
    refine Steps.alone 1 0 rfl rfl (.recvClosed rfl rfl) ?_
    rw [List.append_nil]
    have e : (tab count fun _ => Chan.new (V := V) 0) =
        tab count fun i => if i < count then .new 0 else done 0 :=
      tab_ext fun i hi => by rw [if_pos hi]
    rw [e]
    exact h1.trans h2
  | cons x xs ih =>
    obtain ⟨n1, h1⟩ := run_serve (S := S) count count le_rfl x acc (.source xs 0)
    obtain ⟨n2, h2⟩ := ih (acc ++ [x])
    rw [List.append_assoc, List.singleton_append] at h2
    rw [Nat.sub_self] at h1
    refine ⟨n1 + n2 + 1, ?_⟩
    refine Steps.hand 0 1 rfl rfl rfl rfl rfl rfl rfl rfl ?_
    exact h1.trans h2

/-- **C07 (concurrent consumers)**: when every output has a consumer goroutine of its own, each of
them receives the whole input, under every schedule, and all goroutines end. -/
theorem C07_concurrent (xs : List V) (count : Nat) :
    ∃ t, AlwaysEndsIn (dupThenFan (S := S) xs count) t ∧ (∀ g ∈ t.procs, act g = .halt) ∧
      t.procs.drop 2 = List.replicate count (G.collected xs) := by
  rw [dupThenFan_eq]
  obtain ⟨n, hn⟩ := run_fan (S := S) count xs []
  have hh : ∀ g ∈ (G.closing (V := V) (S := S) [] :: .closing [] :: tab count fun _ => .collected ([] ++ xs)),
      act g = .halt := by
    intro g hg
    simp only [List.mem_cons, tab, List.mem_map] at hg
    rcases hg with rfl | rfl | ⟨_, _, rfl⟩ <;> rfl
  refine ⟨_, alwaysEndsIn (singleUse_of ?_) hn (terminal_of_halt hh) (not_panics_of_halt hh), hh, ?_⟩
  · refine .cons ?_ (.cons ?_ ?_)
    · intro h hh'
      simp only [List.mem_cons, tab, List.mem_map] at hh'
      rcases hh' with rfl | ⟨i, _, rfl⟩ <;> simp [wr, rd, List.mem_range']
      omega
    · intro h hh'
      simp only [tab, List.mem_map] at hh'
      obtain ⟨i, _, rfl⟩ := hh'
      simp [wr, rd]
    · rw [tab, List.pairwise_map]
      refine List.nodup_range.imp ?_
      intro i j hij
      simp [wr, rd, hij]
  · show (tab count fun _ => G.collected ([] ++ xs)) = _
    rw [replicate_eq_tab]
    rfl

example : Drained (dupThenDrain (S := Unit) [3, 1] 1) [[3, 1]] :=
  C07_sequential_partial [3, 1] 1 (.inl le_rfl)

/-! ## C08 -/

theorem settle_right (ys : List V) (g : G V S) (r : CheckRes) (c : Chan V) : ∃ n, Steps n
    (cfg [g, .source ys 1, .checked r] [c, .new 0])
    (cfg [g, settled ys 1, .checked r] [c, settledChan ys]) := by
  cases ys with
  | nil => exact ⟨1, Steps.alone 1 1 rfl rfl (.close rfl) .refl⟩
  | cons y ys => exact ⟨0, .refl⟩

theorem settle_left (xs : List V) (g : G V S) (r : CheckRes) (c : Chan V) : ∃ n, Steps n
    (cfg [.source xs 0, g, .checked r] [.new 0, c])
    (cfg [settled xs 0, g, .checked r] [settledChan xs, c]) := by
  cases xs with
  | nil => exact ⟨1, Steps.alone 0 0 rfl rfl (.close rfl) .refl⟩
  | cons y ys => exact ⟨0, .refl⟩

theorem run_check (eqv : V → V → Bool) (xs ys : List V) : ∃ n r xs' ys', Steps n
    (cfg [G.source (S := S) xs 0, .source ys 1, .check eqv [(0, 1)] [(0, 1)]] [.new 0, .new 0])
    (cfg [settled xs' 0, settled ys' 1, .checked r] [settledChan xs', settledChan ys']) ∧
    (r = .nil ↔ List.Forall₂ (fun a b => eqv a b = true) xs ys) := by
  induction xs generalizing ys with
  | nil =>
    cases ys with
    | nil =>
      refine ⟨4, .nil, [], [], ?_, by simp⟩
      refine Steps.alone 0 0 rfl rfl (.close rfl) ?_
      refine Steps.alone 2 0 rfl rfl (.recvClosed rfl rfl) ?_
      refine Steps.alone 1 1 rfl rfl (.close rfl) ?_
      refine Steps.alone 2 1 rfl rfl (.recvClosed rfl rfl) ?_
      exact .refl
    | cons y ys =>
      obtain ⟨n, hn⟩ := settle_right (S := S) ys (.closing []) .notEndedTheSame (done 0)
      refine ⟨n + 3, .notEndedTheSame, [], ys, ?_, by simp⟩
      refine Steps.alone 0 0 rfl rfl (.close rfl) ?_
      refine Steps.alone 2 0 rfl rfl (.recvClosed rfl rfl) ?_
      refine Steps.hand 1 2 rfl rfl rfl rfl rfl rfl rfl rfl ?_
      exact hn
  | cons x xs ih =>
    cases ys with
    | nil =>
      obtain ⟨n, hn⟩ := settle_left (S := S) xs (.closing []) .notEndedTheSame (done 0)
      refine ⟨n + 3, .notEndedTheSame, xs, [], ?_, by simp⟩
      refine Steps.hand 0 2 rfl rfl rfl rfl rfl rfl rfl rfl ?_
      refine Steps.alone 1 1 rfl rfl (.close rfl) ?_
      refine Steps.alone 2 1 rfl rfl (.recvClosed rfl rfl) ?_
      exact hn
    | cons y ys =>
      by_cases he : eqv x y = true
      · obtain ⟨n, r, xs', ys', hn, hr⟩ := ih ys
        refine ⟨n + 3, r, xs', ys', ?_, by simp [hr, he]⟩
        refine Steps.hand 0 2 rfl rfl rfl rfl rfl rfl rfl rfl ?_
        refine Steps.hand 1 2 rfl rfl rfl rfl rfl rfl rfl rfl ?_
        have : checkPair (S := S) eqv [(0, 1)] [] (some x) (some y) = .check eqv [(0, 1)] [] := by
          simp [checkPair, he]
        rw [this]
        exact Steps.silent 2 rfl rfl hn
      · obtain ⟨n1, h1⟩ := settle_left (S := S) xs (.source ys 1) .different (.new 0)
        obtain ⟨n2, h2⟩ := settle_right (S := S) ys (settled xs 0) .different (settledChan xs)
        refine ⟨n1 + n2 + 2, .different, xs, ys, ?_, by simp [he]⟩
        refine Steps.hand 0 2 rfl rfl rfl rfl rfl rfl rfl rfl ?_
        refine Steps.hand 1 2 rfl rfl rfl rfl rfl rfl rfl rfl ?_
        have : checkPair (S := S) eqv [(0, 1)] [] (some x) (some y) = .checked .different := by
          simp [checkPair, he]
        rw [this]
        exact h1.trans h2

/-- `CheckEquals` returns `r` whatever the scheduler does: no execution panics, is infinite, or ends
without it. (Sources of streams that were not read to their end stay blocked.) -/
def Returns (s : Cfg (lib V S)) (r : CheckRes) : Prop :=
  ∃ t, AlwaysEndsIn s t ∧ t.procs.getLast? = some (G.checked r)

theorem blocked_settled (xs ys : List V) (r : CheckRes) :
    ∀ g ∈ [settled (S := S) xs 0, settled ys 1, .checked r],
      Blocked [settled (S := S) xs 0, settled ys 1, .checked r] [settledChan xs, settledChan ys] g := by
  intro g hg
  simp only [List.mem_cons, List.not_mem_nil, or_false] at hg
  rcases hg with rfl | rfl | rfl
  · cases xs with
    | nil => exact .inl rfl
    | cons y ys => exact .inr (.inr ⟨_, _, _, _, rfl, rfl, rfl, rfl⟩)
  · cases ys with
    | nil => exact .inl rfl
    | cons y ys => exact .inr (.inr ⟨_, _, _, _, rfl, rfl, rfl, rfl⟩)
  · exact .inl rfl

/-- `CheckEquals` of two streams fed by `Slice2Chan`. -/
def checkOne (eqv : V → V → Bool) (xs ys : List V) : Setup V S Unit := do
  let a ← Slice2Chan xs
  let b ← Slice2Chan ys
  CheckEquals eqv [a, b]

/-- `CheckEquals` of two pairs of streams fed by `Slice2Chan`. -/
def checkTwo (eqv : V → V → Bool) (xs ys zs ws : List V) : Setup V S Unit := do
  let a ← Slice2Chan xs
  let b ← Slice2Chan ys
  let c ← Slice2Chan zs
  let d ← Slice2Chan ws
  CheckEquals eqv [a, b, c, d]

/-- **C08 (one pair; partial)**: missing are several pairs, where the claim is false
(`C08_several_pairs_refuted`), and no pair, where the call never returns (`C08_no_channels_refuted`).
`CheckEquals` of two streams returns under every schedule, and returns nil
exactly when the streams have the same length and equal elements at equal places. -/
theorem C08_one_pair_partial (eqv : V → V → Bool) (xs ys : List V) :
    ∃ r, Returns (start (S := S) (checkOne eqv xs ys)) r ∧
      (r = .nil ↔ List.Forall₂ (fun a b => eqv a b = true) xs ys) := by
  obtain ⟨n, r, xs', ys', hn, hr⟩ := run_check (S := S) eqv xs ys
  have hs : start (S := S) (checkOne eqv xs ys) =
      cfg [G.source xs 0, .source ys 1, .check eqv [(0, 1)] [(0, 1)]] [.new 0, .new 0] := by
    have : checkOne (S := S) eqv xs ys = (do
        let a ← Slice2Chan xs
        let b ← Slice2Chan ys
        goStart (.check eqv [(a, b)] [(a, b)])) := by
      simp [checkOne, CheckEquals, pairUp]
    rw [this]
    rfl
  rw [hs]
  refine ⟨r, ⟨_, alwaysEndsIn ?_ hn (terminal_of_blocked (blocked_settled _ _ _))
    (not_panics_of_blocked (blocked_settled _ _ _)), rfl⟩, hr⟩
  refine singleUse_of (ps := [G.source xs 0, .source ys 1, .check eqv [(0, 1)] [(0, 1)]]) ?_
  simp [wr, rd]

/-- With an equality test for `reflect.DeepEqual`: nil iff the two lists are equal. -/
theorem C08_one_pair_eq_partial [DecidableEq V] (xs ys : List V) :
    ∃ r, Returns (start (S := S) (checkOne (fun a b => decide (a = b)) xs ys)) r ∧
      (r = .nil ↔ xs = ys) := by
  obtain ⟨r, h1, h2⟩ := C08_one_pair_partial (S := S) (fun a b => decide (a = b)) xs ys
  refine ⟨r, h1, h2.trans ?_⟩
  simp only [decide_eq_true_eq]
  exact List.forall₂_eq_eq_eq ▸ Iff.rfl

example : ¬ ([1, 2] = [1, 3]) ∧ Returns (start (S := Unit) (checkOne (fun a b => decide (a = b)) [5] [5])) .nil := by
  refine ⟨by decide, ?_⟩
  obtain ⟨r, h, hr⟩ := C08_one_pair_eq_partial (S := Unit) [5] [5]
  rwa [hr.mpr rfl] at h

/-- **C08 (odd number of channels)**: an error at once, without reading anything. -/
theorem C08_odd (eqv : V → V → Bool) (inputs : List Nat) (h : inputs.length % 2 = 1)
    (ps : List (G V S)) (cs : List (Chan V)) :
    (CheckEquals eqv inputs : Setup V S Unit) (ps, cs) = ((), (ps ++ [.checked .notPairs], cs)) := by
  rw [CheckEquals, if_pos (by omega)]
  rfl

/-- Three channels. -/
example : (CheckEquals (S := Unit) (fun a b : Nat => decide (a = b)) [0, 1, 2]) ([], []) = ((), ([.checked .notPairs], [])) :=
  C08_odd _ [0, 1, 2] rfl [] []

/-- **C08 refuted for several pairs**: when the streams of the first pair are empty, `CheckEquals`
returns nil whatever is on the second pair. -/
theorem C08_several_pairs_refuted (eqv : V → V → Bool) (ys zs : List V) :
    Returns (start (S := S) (checkTwo eqv [] [] ys zs)) .nil := by
  have hn : ∃ n, Steps n
      (cfg [G.source (S := S) [] 0, .source [] 1, .source ys 2, .source zs 3,
          .check eqv [(0, 1), (2, 3)] [(0, 1), (2, 3)]] [.new 0, .new 0, .new 0, .new 0])
      (cfg [.closing [], .closing [], settled ys 2, settled zs 3, .checked .nil]
        [done 0, done 0, settledChan ys, settledChan zs]) := by
    cases ys with
    | nil =>
      cases zs with
      | nil =>
        refine ⟨6, ?_⟩
        refine Steps.alone 0 0 rfl rfl (.close rfl) ?_
        refine Steps.alone 1 1 rfl rfl (.close rfl) ?_
        refine Steps.alone 2 2 rfl rfl (.close rfl) ?_
        refine Steps.alone 3 3 rfl rfl (.close rfl) ?_
        refine Steps.alone 4 0 rfl rfl (.recvClosed rfl rfl) ?_
        refine Steps.alone 4 1 rfl rfl (.recvClosed rfl rfl) ?_
        exact .refl
      | cons z zs =>
        refine ⟨5, ?_⟩
        refine Steps.alone 0 0 rfl rfl (.close rfl) ?_
        refine Steps.alone 1 1 rfl rfl (.close rfl) ?_
        refine Steps.alone 2 2 rfl rfl (.close rfl) ?_
        refine Steps.alone 4 0 rfl rfl (.recvClosed rfl rfl) ?_
        refine Steps.alone 4 1 rfl rfl (.recvClosed rfl rfl) ?_
        exact .refl
    | cons y ys =>
      cases zs with
      | nil =>
        refine ⟨5, ?_⟩
        refine Steps.alone 0 0 rfl rfl (.close rfl) ?_
        refine Steps.alone 1 1 rfl rfl (.close rfl) ?_
        refine Steps.alone 3 3 rfl rfl (.close rfl) ?_
        refine Steps.alone 4 0 rfl rfl (.recvClosed rfl rfl) ?_
        refine Steps.alone 4 1 rfl rfl (.recvClosed rfl rfl) ?_
        exact .refl
      | cons z zs =>
        refine ⟨4, ?_⟩
        refine Steps.alone 0 0 rfl rfl (.close rfl) ?_
        refine Steps.alone 1 1 rfl rfl (.close rfl) ?_
        refine Steps.alone 4 0 rfl rfl (.recvClosed rfl rfl) ?_
        refine Steps.alone 4 1 rfl rfl (.recvClosed rfl rfl) ?_
        exact .refl
  obtain ⟨n, hn⟩ := hn
  have hb : ∀ g ∈ [G.closing (S := S) [], .closing [], settled ys 2, settled zs 3, .checked .nil],
      Blocked [G.closing (S := S) [], .closing [], settled ys 2, settled zs 3, .checked .nil]
        [done 0, done 0, settledChan ys, settledChan zs] g := by
    intro g hg
    simp only [List.mem_cons, List.not_mem_nil, or_false] at hg
    rcases hg with rfl | rfl | rfl | rfl | rfl
    · exact .inl rfl
    · exact .inl rfl
    · cases ys with
      | nil => exact .inl rfl
      | cons y ys => exact .inr (.inr ⟨_, _, _, _, rfl, rfl, rfl, rfl⟩)
    · cases zs with
      | nil => exact .inl rfl
      | cons y ys => exact .inr (.inr ⟨_, _, _, _, rfl, rfl, rfl, rfl⟩)
    · exact .inl rfl
  have hs : start (S := S) (checkTwo eqv [] [] ys zs) =
      cfg [G.source [] 0, .source [] 1, .source ys 2, .source zs 3,
        .check eqv [(0, 1), (2, 3)] [(0, 1), (2, 3)]] [.new 0, .new 0, .new 0, .new 0] := by
    have : checkTwo (S := S) eqv [] [] ys zs = (do
        let a ← Slice2Chan []
        let b ← Slice2Chan []
        let c ← Slice2Chan ys
        let d ← Slice2Chan zs
        goStart (.check eqv [(a, b), (c, d)] [(a, b), (c, d)])) := by
      simp [checkTwo, CheckEquals, pairUp]
    rw [this]
    rfl
  rw [hs]
  refine ⟨_, alwaysEndsIn ?_ hn (terminal_of_blocked hb) (not_panics_of_blocked hb), rfl⟩
  refine singleUse_of (ps := [G.source [] 0, .source [] 1, .source ys 2, .source zs 3,
    .check eqv [(0, 1), (2, 3)] [(0, 1), (2, 3)]]) ?_
  simp [wr, rd]

/-- **C08 (no channels)**: `CheckEquals()` never returns. -/
theorem C08_no_channels_refuted (eqv : V → V → Bool) (n : Nat) (u : Cfg (lib V S))
    (h : Steps n (start (CheckEquals eqv [])) u) : ¬ Terminal u := by
  have hstep : ∀ u', Step (start (CheckEquals (S := S) eqv [])) u' → u' = start (CheckEquals eqv []) := by
    intro u' hu
    have hs : start (CheckEquals (S := S) eqv []) = cfg [.check eqv [] []] [] := rfl
    rw [hs] at hu ⊢
    cases hu with
    | @tau i g g' hi ha =>
      cases i with
      | zero =>
        cases hi
        cases ha
        rfl
      | succ i => cases hi
    | chan hi hc hs => simp [cfg] at hc
    | sync hi hj ha hb hc _ _ _ => simp [cfg] at hc
  have hu : u = start (CheckEquals eqv []) := by
    generalize hs : start (CheckEquals (S := S) eqv []) = s at h
    induction h with
    | refl => rfl
    | cons h1 _ ih =>
      subst hs
      have := hstep _ h1
      rw [this] at ih
      exact ih rfl
  subst hu
  intro ht
  exact ht _ (.tau (s := cfg [.check eqv [] []] []) (i := 0) rfl rfl)

end Verif.Props
