import Verif.Conc.Net

/-!
# The goroutines of `helpertools`

`G V S` is the set of control states of the goroutines started by `helpertools` and of the callers
that drain their results; `V` is the type of values on channels (Go's type parameters `T`, `A`, `B`,
`R` are all `V`; take a sum type for differing ones) and `S` the state captured by the closure given
to `Operate`. Channels are numbered.
-/

namespace Verif.Conc

/-- How `CheckEquals` returns. -/
inductive CheckRes where
  | nil
  | notPairs
  | notEndedTheSame
  | different
  deriving DecidableEq, Repr

/-- Control states. -/
inductive G (V S : Type) where
  /-- Slice2Chan.go:6-12: elements still to send on `out`, then the deferred close -/
  | source (xs : List V) (out : Nat)
  /-- Apply.go:16-22 at the head of the loop -/
  | apply (f : V → V) (inp out : Nat)
  /-- Apply.go:20, about to send -/
  | applySend (f : V → V) (inp out : Nat) (v : V)
  /-- Pipe.go:12-17 at the head of the loop -/
  | pipe (inp out : Nat)
  /-- Pipe.go:15, about to send -/
  | pipeSend (inp out : Nat) (v : V)
  /-- Shift.go:14-20, `n` fill values still to send, then `Pipe` -/
  | shift (n : Nat) (fill : V) (inp out : Nat)
  /-- Skip.go:13-19, `n` values still to discard, then `Pipe` -/
  | skip (n : Nat) (inp out : Nat)
  /-- Operate.go:8-27 at the head of the loop; `s` is the state captured by the closure `o` -/
  | operate (o : S → V → V → S × V) (s : S) (a b out : Nat)
  /-- Operate.go:18, first operand received -/
  | operateB (o : S → V → V → S × V) (s : S) (a b out : Nat) (an : V)
  /-- Operate.go:24, about to send -/
  | operateSend (o : S → V → V → S × V) (s : S) (a b out : Nat) (v : V)
  /-- Operate.go:14-15 and 20-21: inside `Drain(c)` (Drain.go:4-11), then `break` and the deferred close -/
  | drain (c out : Nat)
  /-- Duplicate.go:27-38 at the head of the loop -/
  | dup (inp : Nat) (outs : List Nat)
  /-- Duplicate.go:33-35, `rest` outputs still to be served with `v` -/
  | dupSend (inp : Nat) (outs rest : List Nat) (v : V)
  /-- running the deferred closes; `closing []` is a goroutine that has ended -/
  | closing (cs : List Nat)
  /-- a caller inside Chan2Slice.go:3-11 with the values received so far -/
  | collect (inp : Nat) (acc : List V)
  /-- the caller after `Chan2Slice` -/
  | collected (acc : List V)
  /-- a caller that applies `Chan2Slice` to the channels `cs` one after the other -/
  | drainAll (cs : List Nat) (acc : List V) (res : List (List V))
  /-- CheckEquals.go:10-38: at pair `todo.head` of the current round -/
  | check (eqv : V → V → Bool) (pairs todo : List (Nat × Nat))
  /-- CheckEquals.go:20, first channel of the pair received -/
  | checkB (eqv : V → V → Bool) (pairs todo : List (Nat × Nat)) (b : Nat) (actual : Option V)
  /-- `CheckEquals` has returned -/
  | checked (r : CheckRes)

variable {V S : Type}

/-- `drainAll` after one more channel is finished. -/
def drainNext (cs : List Nat) (res : List (List V)) : G V S := .drainAll cs [] res

/-- The decision of CheckEquals.go:22-33 on one pair of received values. -/
def checkPair (eqv : V → V → Bool) (pairs todo : List (Nat × Nat)) : Option V → Option V → G V S
  | some a, some b => if eqv a b then .check eqv pairs todo else .checked .different
  | none, none => .checked .nil
  | _, _ => .checked .notEndedTheSame

/-- The next action of every goroutine. -/
def act : G V S → Act V (G V S)
  | .source (x :: xs) out => .send out x (.source xs out)
  | .source [] out => .close out (.closing [])
  | .apply f inp out => .recv inp fun
    | some v => .applySend f inp out (f v)
    | none => .closing [out]
  | .applySend f inp out v => .send out v (.apply f inp out)
  | .pipe inp out => .recv inp fun
    | some v => .pipeSend inp out v
    | none => .closing [out]
  | .pipeSend inp out v => .send out v (.pipe inp out)
  | .shift 0 _ inp out => .tau (.pipe inp out)
  | .shift (n + 1) fill inp out => .send out fill (.shift n fill inp out)
  | .skip 0 inp out => .tau (.pipe inp out)
  | .skip (n + 1) inp out => .recv inp fun _ => .skip n inp out
  | .operate o s a b out => .recv a fun
    | some an => .operateB o s a b out an
    | none => .drain b out
  | .operateB o s a b out an => .recv b fun
    | some bn => .operateSend o (o s an bn).1 a b out (o s an bn).2
    | none => .drain a out
  | .operateSend o s a b out v => .send out v (.operate o s a b out)
  | .drain c out => .recv c fun
    | some _ => .drain c out
    | none => .closing [out]
  | .dup inp outs => .recv inp fun
    | some v => .dupSend inp outs outs v
    | none => .closing outs.reverse
  | .dupSend inp outs [] _ => .tau (.dup inp outs)
  | .dupSend inp outs (c :: rest) v => .send c v (.dupSend inp outs rest v)
  | .closing [] => .halt
  | .closing (c :: cs) => .close c (.closing cs)
  | .collect inp acc => .recv inp fun
    | some v => .collect inp (acc ++ [v])
    | none => .collected acc
  | .collected _ => .halt
  | .drainAll [] _ _ => .halt
  | .drainAll (c :: cs) acc res => .recv c fun
    | some v => .drainAll (c :: cs) (acc ++ [v]) res
    | none => .drainAll cs [] (res ++ [acc])
  | .check eqv pairs [] => .tau (.check eqv pairs pairs)
  | .check eqv pairs ((a, b) :: todo) => .recv a fun x => .checkB eqv pairs todo b x
  | .checkB eqv pairs todo b x => .recv b fun y => checkPair eqv pairs todo x y
  | .checked _ => .halt

/-- Channels a goroutine may still write. -/
def wr : G V S → List Nat
  | .source _ out => [out]
  | .apply _ _ out => [out]
  | .applySend _ _ out _ => [out]
  | .pipe _ out => [out]
  | .pipeSend _ out _ => [out]
  | .shift _ _ _ out => [out]
  | .skip _ _ out => [out]
  | .operate _ _ _ _ out => [out]
  | .operateB _ _ _ _ out _ => [out]
  | .operateSend _ _ _ _ out _ => [out]
  | .drain _ out => [out]
  | .dup _ outs => outs
  | .dupSend _ outs rest _ => outs ++ rest
  | .closing cs => cs
  | _ => []

/-- The channels of some pairs. -/
def pairChans (ps : List (Nat × Nat)) : List Nat := ps.flatMap fun p => [p.1, p.2]

/-- Channels a goroutine may still read. -/
def rd : G V S → List Nat
  | .apply _ inp _ => [inp]
  | .applySend _ inp _ _ => [inp]
  | .pipe inp _ => [inp]
  | .pipeSend inp _ _ => [inp]
  | .shift _ _ inp _ => [inp]
  | .skip _ inp _ => [inp]
  | .operate _ _ a b _ => [a, b]
  | .operateB _ _ a b _ _ => [a, b]
  | .operateSend _ _ a b _ _ => [a, b]
  | .drain c _ => [c]
  | .dup inp _ => [inp]
  | .dupSend inp _ _ _ => [inp]
  | .collect inp _ => [inp]
  | .drainAll cs _ _ => cs
  | .check _ pairs todo => pairChans pairs ++ pairChans todo
  | .checkB _ pairs todo b _ => pairChans pairs ++ pairChans todo ++ [b]
  | _ => []

theorem checkPair_rd (eqv : V → V → Bool) (pairs todo : List (Nat × Nat)) (x y : Option V) :
    wr (checkPair (S := S) eqv pairs todo x y) = [] ∧
      rd (checkPair (S := S) eqv pairs todo x y) ⊆ pairChans pairs ++ pairChans todo := by
  cases x <;> cases y <;> simp only [checkPair] <;> (try split) <;> simp [wr, rd]

/-- The goroutines of the library as a machine. -/
def lib (V S : Type) : Machine V where
  G := G V S
  act := act
  wr := wr
  rd := rd
  recv_mem := by
    intro g c k h
    rcases g with ⟨_ | _, _⟩ | _ | _ | _ | _ | ⟨_ | _, _, _, _⟩ | ⟨_ | _, _, _⟩ | _ | _ | _ | _ | _ |
      ⟨_, _, _ | _, _⟩ | ⟨_ | _⟩ | _ | _ | ⟨_ | _, _, _⟩ | ⟨_, _, _ | ⟨⟨_, _⟩, _⟩⟩ | _ | _ <;>
      simp only [act, reduceCtorEq] at h <;> cases h <;> simp [rd, pairChans]
  send_mem := by
    intro g c v g' h
    rcases g with ⟨_ | _, _⟩ | _ | _ | _ | _ | ⟨_ | _, _, _, _⟩ | ⟨_ | _, _, _⟩ | _ | _ | _ | _ | _ |
      ⟨_, _, _ | _, _⟩ | ⟨_ | _⟩ | _ | _ | ⟨_ | _, _, _⟩ | ⟨_, _, _ | ⟨⟨_, _⟩, _⟩⟩ | _ | _ <;>
      simp only [act, reduceCtorEq] at h <;> cases h <;> simp [wr]
  close_mem := by
    intro g c g' h
    rcases g with ⟨_ | _, _⟩ | _ | _ | _ | _ | ⟨_ | _, _, _, _⟩ | ⟨_ | _, _, _⟩ | _ | _ | _ | _ | _ |
      ⟨_, _, _ | _, _⟩ | ⟨_ | _⟩ | _ | _ | ⟨_ | _, _, _⟩ | ⟨_, _, _ | ⟨⟨_, _⟩, _⟩⟩ | _ | _ <;>
      simp only [act, reduceCtorEq] at h <;> cases h <;> simp [wr]
  recv_next := by
    intro g c k h o
    rcases g with ⟨_ | _, _⟩ | _ | _ | _ | _ | ⟨_ | _, _, _, _⟩ | ⟨_ | _, _, _⟩ | _ | _ | _ | _ | _ |
      ⟨_, _, _ | _, _⟩ | ⟨_ | _⟩ | _ | _ | ⟨_ | _, _, _⟩ | ⟨_, _, _ | ⟨⟨_, _⟩, _⟩⟩ |
      ⟨_, _, _, _, _⟩ | _ <;>
      simp only [act, reduceCtorEq] at h <;> cases h <;>
      first
        | (refine ⟨by rw [(checkPair_rd _ _ _ _ _).1]; exact List.nil_subset _,
            fun x hx => ?_⟩
           have := (checkPair_rd _ _ _ _ _).2 hx
           simp only [rd, List.mem_append] at this ⊢
           tauto)
        | (cases o <;> simp [wr, rd, pairChans]; done)
        | (refine ⟨List.nil_subset _, fun x hx => ?_⟩
           simp only [rd, pairChans, List.flatMap_cons, List.mem_append, List.mem_cons] at hx ⊢
           tauto)
  send_next := by
    intro g c v g' h
    rcases g with ⟨_ | _, _⟩ | _ | _ | _ | _ | ⟨_ | _, _, _, _⟩ | ⟨_ | _, _, _⟩ | _ | _ | _ | _ | _ |
      ⟨_, _, _ | _, _⟩ | ⟨_ | _⟩ | _ | _ | ⟨_ | _, _, _⟩ | ⟨_, _, _ | ⟨⟨_, _⟩, _⟩⟩ | _ | _ <;>
      simp only [act, reduceCtorEq] at h <;> cases h <;> simp [wr, rd]
  close_next := by
    intro g c g' h
    rcases g with ⟨_ | _, _⟩ | _ | _ | _ | _ | ⟨_ | _, _, _, _⟩ | ⟨_ | _, _, _⟩ | _ | _ | _ | _ | _ |
      ⟨_, _, _ | _, _⟩ | ⟨_ | _⟩ | _ | _ | ⟨_ | _, _, _⟩ | ⟨_, _, _ | ⟨⟨_, _⟩, _⟩⟩ | _ | _ <;>
      simp only [act, reduceCtorEq] at h <;> cases h <;> simp [wr, rd]
  tau_next := by
    intro g g' h
    rcases g with ⟨_ | _, _⟩ | _ | _ | _ | _ | ⟨_ | _, _, _, _⟩ | ⟨_ | _, _, _⟩ | _ | _ | _ | _ | _ |
      ⟨_, _, _ | _, _⟩ | ⟨_ | _⟩ | _ | _ | ⟨_ | _, _, _⟩ | ⟨_, _, _ | ⟨⟨_, _⟩, _⟩⟩ | _ | _ <;>
      simp only [act, reduceCtorEq] at h <;> cases h <;> simp [wr, rd, pairChans]

/-! ## Setting up a network

The library's functions create channels and start goroutines. `Setup` records both. Simplification:
the caller's own set-up communicates with nobody, so the model runs it to its end before the first
goroutine moves. -/

/-- Configuration of the library machine. -/
def cfg (ps : List (G V S)) (cs : List (Chan V)) : Cfg (lib V S) := ⟨ps, cs⟩

/-- The caller's set-up code: goroutines started and channels made so far. -/
abbrev Setup (V S : Type) := StateM (List (G V S) × List (Chan V))

/-- `make(chan T, cap)`; returns the channel's number. -/
def makeChan (cap : Nat) : Setup V S Nat := fun s => (s.2.length, (s.1, s.2 ++ [Chan.new cap]))

/-- `go func() { … }()`. -/
def goStart (g : G V S) : Setup V S Unit := fun s => ((), (s.1 ++ [g], s.2))

/-- `cap(c)`. -/
def capOf (c : Nat) : Setup V S Nat := fun s => (((s.2[c]?).map Chan.cap).getD 0, s)

/-- Slice2Chan.go:3-15. -/
def Slice2Chan (xs : List V) : Setup V S Nat := do
  let c ← makeChan 0
  goStart (.source xs c)
  return c

/-- Apply.go:13-25. -/
def Apply (c : Nat) (f : V → V) : Setup V S Nat := do
  let ac ← makeChan 0
  goStart (.apply f c ac)
  return ac

/-- Shift.go:11-23, for `count ≥ 0` (a negative `count` exceeding `cap(c)` makes `make` panic). -/
def Shift (c : Nat) (count : Nat) (fill : V) : Setup V S Nat := do
  let r ← makeChan ((← capOf c) + count)
  goStart (.shift count fill c r)
  return r

/-- Skip.go:10-22, for `count ≥ 0` (a negative `count` behaves as 0). -/
def Skip (c : Nat) (count : Nat) : Setup V S Nat := do
  let r ← makeChan (← capOf c)
  goStart (.skip count c r)
  return r

/-- Operate.go:5-29; `s` is the initial value of the variables captured by the closure `o`. -/
def Operate (a b : Nat) (o : S → V → V → S × V) (s : S) : Setup V S Nat := do
  let oc ← makeChan 0
  goStart (.operate o s a b oc)
  return oc

/-- `make(chan T, cap)` done `count` times (Duplicate.go:22-25). -/
def makeChans (cap : Nat) : Nat → Setup V S (List Nat)
  | 0 => return []
  | n + 1 => do
    let c ← makeChan cap
    let cs ← makeChans cap n
    return c :: cs

/-- Duplicate.go:17-40, for `count ≥ 0` (a negative `count` makes `make` panic). -/
def Duplicate (input : Nat) (count : Nat) : Setup V S (List Nat) := do
  let outs ← makeChans (← capOf input) count
  goStart (.dup input outs)
  return outs

/-- The caller runs Chan2Slice.go:3-11. -/
def Chan2Slice (c : Nat) : Setup V S Unit := goStart (.collect c [])

/-- The inputs of CheckEquals.go:18 taken two by two. -/
def pairUp : List Nat → List (Nat × Nat)
  | a :: b :: r => (a, b) :: pairUp r
  | _ => []

/-- The caller runs CheckEquals.go:10-37; `eqv` is `reflect.DeepEqual`. -/
def CheckEquals (eqv : V → V → Bool) (inputs : List Nat) : Setup V S Unit :=
  if inputs.length % 2 ≠ 0 then goStart (.checked .notPairs)
  else goStart (.check eqv (pairUp inputs) (pairUp inputs))

/-- The network a piece of set-up code leaves behind. -/
def start {α : Type} (m : Setup V S α) : Cfg (lib V S) := cfg (m.run ([], [])).2.1 (m.run ([], [])).2.2

/-! ## Small facts for the schedules -/

/-- A closed and drained channel. -/
def done (cap : Nat) : Chan V := { cap := cap, buf := [], closed := true }

/-- A channel with queued values. -/
def holding (cap : Nat) (buf : List V) (closed : Bool) : Chan V := ⟨cap, buf, closed⟩

theorem singleUse_of {ps : List (G V S)} {cs : List (Chan V)}
    (h : ps.Pairwise fun g h => (∀ c ∈ wr g, c ∉ wr h) ∧ (∀ c ∈ rd g, c ∉ rd h)) :
    SingleUse (cfg ps cs) := by
  rw [List.pairwise_iff_getElem] at h
  intro i j g g' hi hj hij
  obtain ⟨hi1, hi2⟩ := List.getElem?_eq_some_iff.mp hi
  obtain ⟨hj1, hj2⟩ := List.getElem?_eq_some_iff.mp hj
  rcases Nat.lt_or_gt_of_ne hij with hlt | hgt
  · have := h i j hi1 hj1 hlt
    rw [← hi2, ← hj2]; exact this
  · have := h j i hj1 hi1 hgt
    rw [← hi2, ← hj2]
    exact ⟨fun c hc hc' => this.1 c hc' hc, fun c hc hc' => this.2 c hc' hc⟩

theorem terminal_of_halt {ps : List (G V S)} {cs : List (Chan V)} (h : ∀ g ∈ ps, act g = .halt) :
    Terminal (cfg ps cs) := by
  intro s' hs
  have key : ∀ (i : Nat) (g : G V S), (cfg ps cs).procs[i]? = some g → act g = .halt :=
    fun i g hi => h g (List.mem_of_getElem? hi)
  cases hs with
  | tau hi ha =>
    have := key _ _ hi
    rw [show (lib V S).act _ = act _ from rfl, this] at ha; cases ha
  | chan hi hc hs =>
    have := key _ _ hi
    rw [show (lib V S).act _ = act _ from rfl, this] at hs; cases hs
  | sync hi hj ha hb hc _ _ _ =>
    have := key _ _ hi
    rw [show (lib V S).act _ = act _ from rfl, this] at ha; cases ha

theorem not_panics_of_halt {ps : List (G V S)} {cs : List (Chan V)} (h : ∀ g ∈ ps, act g = .halt) :
    ¬ Panics (cfg ps cs) := by
  rintro ⟨i, g, c, ch, hi, hc, _, ⟨v, g', ha⟩ | ⟨g', ha⟩⟩
  · have := h g (List.mem_of_getElem? hi)
    rw [show (lib V S).act _ = act _ from rfl, this] at ha; cases ha
  · have := h g (List.mem_of_getElem? hi)
    rw [show (lib V S).act _ = act _ from rfl, this] at ha; cases ha

/-- One step done by goroutine `i` alone. -/
theorem Steps.alone {n : Nat} {ps : List (G V S)} {cs : List (Chan V)} {t : Cfg (lib V S)}
    (i c : Nat) {g g' : G V S} {ch ch' : Chan V} (hi : ps[i]? = some g) (hc : cs[c]? = some ch)
    (hs : CStep (act g) c ch ch' g') (h : Steps n (cfg (ps.set i g') (cs.set c ch')) t) :
    Steps (n + 1) (cfg ps cs) t :=
  .cons (.chan (s := cfg ps cs) hi hc hs) h

/-- One hand-over from goroutine `i` to goroutine `j`. -/
theorem Steps.hand {n : Nat} {ps : List (G V S)} {cs : List (Chan V)} {t : Cfg (lib V S)}
    (i j : Nat) {g h g' : G V S} {c : Nat} {v : V} {k : Option V → G V S} {ch : Chan V}
    (hi : ps[i]? = some g) (hj : ps[j]? = some h) (ha : act g = .send c v g')
    (hb : act h = .recv c k) (hc : cs[c]? = some ch) (hcap : ch.cap = 0) (hopen : ch.closed = false)
    (hbuf : ch.buf = []) (hn : Steps n (cfg ((ps.set i g').set j (k (some v))) cs) t) :
    Steps (n + 1) (cfg ps cs) t :=
  .cons (.sync (s := cfg ps cs) hi hj ha hb hc hcap hopen hbuf) hn

/-- One step without communication. -/
theorem Steps.silent {n : Nat} {ps : List (G V S)} {cs : List (Chan V)} {t : Cfg (lib V S)}
    (i : Nat) {g g' : G V S} (hi : ps[i]? = some g) (ha : act g = .tau g')
    (hn : Steps n (cfg (ps.set i g') cs) t) : Steps (n + 1) (cfg ps cs) t :=
  .cons (.tau (s := cfg ps cs) hi ha) hn

end Verif.Conc
