import Mathlib.Data.List.Basic

/-!
# Goroutines and channels

A model of the part of Go's concurrency the library uses: a fixed set of goroutines, each a
deterministic state machine, communicating over buffered or unbuffered channels. The scheduler is
free: `Step` relates a configuration to every configuration one scheduling decision can lead to.
-/

namespace Verif.Conc

/-- The next thing a goroutine does. -/
inductive Act (V G : Type) where
  /-- `v, ok := <-c` (`none` when the channel is closed and empty) -/
  | recv (c : Nat) (k : Option V → G)
  /-- `c <- v` -/
  | send (c : Nat) (v : V) (next : G)
  /-- `close(c)` -/
  | close (c : Nat) (next : G)
  /-- a step without communication -/
  | tau (next : G)
  /-- the goroutine has ended -/
  | halt

/-- A channel: capacity (0 = unbuffered), queued values (oldest first), closed flag. -/
structure Chan (V : Type) where
  cap : Nat
  buf : List V
  closed : Bool

/-- `make(chan T, cap)`. -/
def Chan.new {V : Type} (cap : Nat) : Chan V := { cap := cap, buf := [], closed := false }

/-- A family of goroutine programs: control states, next action, and for every control state the
channels the goroutine may still write (send, close) or read. -/
structure Machine (V : Type) where
  G : Type
  act : G → Act V G
  wr : G → List Nat
  rd : G → List Nat
  recv_mem : ∀ {g c k}, act g = .recv c k → c ∈ rd g
  send_mem : ∀ {g c v g'}, act g = .send c v g' → c ∈ wr g
  close_mem : ∀ {g c g'}, act g = .close c g' → c ∈ wr g
  recv_next : ∀ {g c k}, act g = .recv c k → ∀ o, wr (k o) ⊆ wr g ∧ rd (k o) ⊆ rd g
  send_next : ∀ {g c v g'}, act g = .send c v g' → wr g' ⊆ wr g ∧ rd g' ⊆ rd g
  close_next : ∀ {g c g'}, act g = .close c g' → wr g' ⊆ wr g ∧ rd g' ⊆ rd g
  tau_next : ∀ {g g'}, act g = .tau g' → wr g' ⊆ wr g ∧ rd g' ⊆ rd g

variable {V : Type} {M : Machine V}

/-- All goroutines and all channels. -/
structure Cfg (M : Machine V) where
  procs : List M.G
  chans : List (Chan V)

/-- The effect of an action on its channel, as far as one goroutine can do it alone. -/
inductive CStep {G : Type} : Act V G → Nat → Chan V → Chan V → G → Prop where
  /-- send into a buffer with room -/
  | send {c v g ch} (hopen : ch.closed = false) (hroom : ch.buf.length < ch.cap) :
      CStep (.send c v g) c ch { ch with buf := ch.buf ++ [v] } g
  /-- receive the oldest queued value -/
  | recv {c k ch v rest} (hbuf : ch.buf = v :: rest) :
      CStep (.recv c k) c ch { ch with buf := rest } (k (some v))
  /-- receive from a closed, empty channel -/
  | recvClosed {c k ch} (hbuf : ch.buf = []) (hclosed : ch.closed = true) :
      CStep (.recv c k) c ch ch (k none)
  /-- close an open channel -/
  | close {c g ch} (hopen : ch.closed = false) :
      CStep (.close c g) c ch { ch with closed := true } g

/-- One scheduling decision. -/
inductive Step : Cfg M → Cfg M → Prop where
  | tau {s : Cfg M} {i g g'} (hi : s.procs[i]? = some g) (ha : M.act g = .tau g') :
      Step s ⟨s.procs.set i g', s.chans⟩
  | chan {s : Cfg M} {i g g' c ch ch'} (hi : s.procs[i]? = some g) (hc : s.chans[c]? = some ch)
      (hs : CStep (M.act g) c ch ch' g') : Step s ⟨s.procs.set i g', s.chans.set c ch'⟩
  /-- hand-over on an unbuffered channel -/
  | sync {s : Cfg M} {i j g h c v g' k ch} (hi : s.procs[i]? = some g) (hj : s.procs[j]? = some h)
      (ha : M.act g = .send c v g') (hb : M.act h = .recv c k) (hc : s.chans[c]? = some ch)
      (hcap : ch.cap = 0) (hopen : ch.closed = false) (hbuf : ch.buf = []) :
      Step s ⟨(s.procs.set i g').set j (k (some v)), s.chans⟩

/-- A goroutine is about to panic: send on a closed channel or close of a closed channel. -/
def Panics (s : Cfg M) : Prop :=
  ∃ (i : Nat) (g : M.G) (c : Nat) (ch : Chan V), s.procs[i]? = some g ∧ s.chans[c]? = some ch ∧
    ch.closed = true ∧ ((∃ v g', M.act g = .send c v g') ∨ ∃ g', M.act g = .close c g')

/-- No goroutine can move. -/
def Terminal (s : Cfg M) : Prop := ∀ s', ¬ Step s s'

/-- An execution of `n` scheduling decisions. -/
inductive Steps : Nat → Cfg M → Cfg M → Prop where
  | refl {s} : Steps 0 s s
  | cons {n s s' t} : Step s s' → Steps n s' t → Steps (n + 1) s t

/-- Every channel has at most one goroutine that may write it and at most one that may read it. -/
def SingleUse (s : Cfg M) : Prop :=
  ∀ (i j : Nat) (g h : M.G), s.procs[i]? = some g → s.procs[j]? = some h → i ≠ j →
    (∀ c ∈ M.wr g, c ∉ M.wr h) ∧ (∀ c ∈ M.rd g, c ∉ M.rd h)

/-- **What "whatever the scheduler does" means**: executions from `s` have bounded length, every
reachable configuration can still reach `t`, a reachable configuration without moves is `t`, and no
reachable configuration panics. -/
structure AlwaysEndsIn (s t : Cfg M) : Prop where
  bounded : ∃ n, ∀ m u, Steps m s u → m ≤ n
  live : ∀ m u, Steps m s u → ∃ k, Steps k u t
  unique : ∀ m u, Steps m s u → Terminal u → u = t
  ends : Terminal t
  safe : ∀ m u, Steps m s u → ¬ Panics u

/-! ## Confluence -/

theorem Steps.trans {m n : Nat} {s t u : Cfg M} (h : Steps m s t) (h' : Steps n t u) :
    Steps (m + n) s u := by
  induction h with
  | refl => simpa using h'
  | cons hs _ ih =>
    rw [Nat.add_right_comm]
    exact .cons hs (ih h')

theorem Steps.snoc {n : Nat} {s t u : Cfg M} (h : Steps n s t) (h' : Step t u) : Steps (n + 1) s u :=
  h.trans (.cons h' .refl)

/-- What a `set` leaves in place. -/
theorem get_set {α : Type} {l : List α} {i j : Nat} {a x : α} (h : (l.set i a)[j]? = some x) :
    (i = j ∧ x = a) ∨ (i ≠ j ∧ l[j]? = some x) := by
  rw [List.getElem?_set] at h
  split at h
  · next hij =>
    split at h
    · exact .inl ⟨hij, (Option.some.inj h).symm⟩
    · cases h
  · next hij => exact .inr ⟨hij, h⟩

theorem SingleUse.set {s : Cfg M} (h : SingleUse s) {i : Nat} {g g' : M.G} (hi : s.procs[i]? = some g)
    (hw : M.wr g' ⊆ M.wr g) (hr : M.rd g' ⊆ M.rd g) (ch : List (Chan V)) :
    SingleUse (⟨s.procs.set i g', ch⟩ : Cfg M) := by
  intro a b x y ha hb hab
  rcases get_set ha with ⟨rfl, rfl⟩ | ⟨hia, ha'⟩
  · rcases get_set hb with ⟨h1, _⟩ | ⟨_, hb'⟩
    · exact absurd h1 hab
    · have := h i b g y hi hb' hab
      exact ⟨fun c hc => this.1 c (hw hc), fun c hc => this.2 c (hr hc)⟩
  · rcases get_set hb with ⟨rfl, rfl⟩ | ⟨_, hb'⟩
    · have := h a i x g ha' hi hab
      exact ⟨fun c hc hc' => this.1 c hc (hw hc'), fun c hc hc' => this.2 c hc (hr hc')⟩
    · exact h a b x y ha' hb' hab

theorem CStep.shrink {g g' : M.G} {c : Nat} {ch ch' : Chan V} (h : CStep (M.act g) c ch ch' g') :
    M.wr g' ⊆ M.wr g ∧ M.rd g' ⊆ M.rd g := by
  generalize ha : M.act g = a at h
  cases h with
  | send _ _ => exact M.send_next ha
  | recv _ => exact M.recv_next ha _
  | recvClosed _ _ => exact M.recv_next ha _
  | close _ => exact M.close_next ha

theorem SingleUse.step {s t : Cfg M} (h : SingleUse s) (hs : Step s t) : SingleUse t := by
  cases hs with
  | tau hi ha => exact h.set hi (M.tau_next ha).1 (M.tau_next ha).2 _
  | chan hi hc hs => exact h.set hi hs.shrink.1 hs.shrink.2 _
  | @sync i j g hh c v g' k ch hi hj ha hb hc _ _ _ =>
    have h1 := h.set hi (M.send_next ha).1 (M.send_next ha).2 s.chans
    have hij : i ≠ j := by
      rintro rfl
      rw [hi] at hj; cases hj
      rw [ha] at hb; cases hb
    have hj' : (s.procs.set i g')[j]? = some hh := by rw [List.getElem?_set_ne hij]; exact hj
    exact h1.set (s := ⟨s.procs.set i g', s.chans⟩) hj' (M.recv_next hb _).1 (M.recv_next hb _).2 _

/-- Two goroutines acting on the same channel, one as writer and one as reader, commute. -/
theorem CStep.comm {G : Type} {a b : Act V G} {c : Nat} {ch ch1 ch2 : Chan V} {g1 g2 : G}
    (h1 : CStep a c ch ch1 g1) (h2 : CStep b c ch ch2 g2)
    (hw : ∀ k, a ≠ .recv c k) (hr : ∃ k, b = .recv c k) :
    ∃ ch3, CStep b c ch1 ch3 g2 ∧ CStep a c ch2 ch3 g1 := by
  obtain ⟨k, rfl⟩ := hr
  cases h1 with
  | @send _ v _ _ hopen hroom =>
    cases h2 with
    | @recv _ _ _ v' rest hbuf =>
      refine ⟨_, .recv (rest := rest ++ [v]) (by simp [hbuf]), ?_⟩
      exact .send hopen (by simp only [hbuf, List.length_cons] at hroom ⊢; omega)
    | recvClosed hbuf hclosed => simp [hopen] at hclosed
  | close hopen =>
    cases h2 with
    | recv hbuf => exact ⟨_, .recv hbuf, .close hopen⟩
    | recvClosed hbuf hclosed => simp [hopen] at hclosed
  | recv hbuf => exact absurd rfl (hw _)
  | recvClosed _ _ => exact absurd rfl (hw _)

/-- An action's channel is fixed by the action. -/
theorem CStep.unique {G : Type} {a : Act V G} {c : Nat} {ch ch1 ch2 : Chan V} {g1 g2 : G}
    (h1 : CStep a c ch ch1 g1) (h2 : CStep a c ch ch2 g2) : ch1 = ch2 ∧ g1 = g2 := by
  cases h1 with
  | send _ _ => cases h2; exact ⟨rfl, rfl⟩
  | recv hbuf =>
    cases h2 with
    | recv hbuf' => rw [hbuf] at hbuf'; cases hbuf'; exact ⟨rfl, rfl⟩
    | recvClosed hbuf' _ => rw [hbuf] at hbuf'; cases hbuf'
  | recvClosed hbuf _ =>
    cases h2 with
    | recv hbuf' => rw [hbuf] at hbuf'; cases hbuf'
    | recvClosed _ _ => exact ⟨rfl, rfl⟩
  | close _ => cases h2; exact ⟨rfl, rfl⟩

theorem CStep.chan_eq {G : Type} {a : Act V G} {c d : Nat} {ch ch' e e' : Chan V} {g g' : G}
    (h1 : CStep a c ch ch' g) (h2 : CStep a d e e' g') : c = d := by
  cases h1 <;> cases h2 <;> rfl

/-- An action that can be done alone is a writer's or a reader's action on its channel. -/
theorem CStep.kind {g g' : M.G} {c : Nat} {ch ch' : Chan V} (h : CStep (M.act g) c ch ch' g') :
    (c ∈ M.wr g ∧ ∀ k, M.act g ≠ .recv c k) ∨ (c ∈ M.rd g ∧ ∃ k, M.act g = .recv c k) := by
  generalize ha : M.act g = a at h
  cases h with
  | send _ _ => exact .inl ⟨M.send_mem ha, fun k hk => by cases hk⟩
  | recv _ => exact .inr ⟨M.recv_mem ha, _, rfl⟩
  | recvClosed _ _ => exact .inr ⟨M.recv_mem ha, _, rfl⟩
  | close _ => exact .inl ⟨M.close_mem ha, fun k hk => by cases hk⟩

theorem getp_set_ne {α : Type} {l : List α} {i j : Nat} {a x : α} (h : i ≠ j) (hj : l[j]? = some x) :
    (l.set i a)[j]? = some x := by rw [List.getElem?_set_ne h]; exact hj

/-- **One-step diamond.** -/
theorem diamond {s t u : Cfg M} (hu : SingleUse s) (h1 : Step s t) (h2 : Step s u) :
    t = u ∨ ∃ w, Step t w ∧ Step u w := by
  -- two goroutines alone
  cases h1 with
  | @tau i g g' hi ha =>
    cases h2 with
    | @tau j h h' hj hb =>
      by_cases hij : i = j
      · subst hij
        rw [hi] at hj; cases hj
        rw [ha] at hb; cases hb
        exact .inl rfl
      · refine .inr ⟨⟨(s.procs.set i g').set j h', s.chans⟩, ?_, ?_⟩
        · exact .tau (s := ⟨_, s.chans⟩) (getp_set_ne hij hj) hb
        · rw [List.set_comm _ _ hij]
          exact .tau (s := ⟨_, s.chans⟩) (getp_set_ne (Ne.symm hij) hi) ha
    | @chan j h h' c ch ch' hj hc hs =>
      by_cases hij : i = j
      · subst hij
        rw [hi] at hj; cases hj
        rw [ha] at hs; cases hs
      · refine .inr ⟨⟨(s.procs.set i g').set j h', s.chans.set c ch'⟩, ?_, ?_⟩
        · exact .chan (s := ⟨_, s.chans⟩) (getp_set_ne hij hj) hc hs
        · rw [List.set_comm _ _ hij]
          exact .tau (s := ⟨_, _⟩) (getp_set_ne (Ne.symm hij) hi) ha
    | @sync j l h m c v h' k ch hj hl hb hr hc hcap hopen hbuf =>
      have hij : i ≠ j := by
        rintro rfl; rw [hi] at hj; cases hj; rw [ha] at hb; cases hb
      have hil : i ≠ l := by
        rintro rfl; rw [hi] at hl; cases hl; rw [ha] at hr; cases hr
      refine .inr ⟨⟨((s.procs.set i g').set j h').set l (k (some v)), s.chans⟩, ?_, ?_⟩
      · exact .sync (s := ⟨_, s.chans⟩) (getp_set_ne hij hj) (getp_set_ne hil hl) hb hr hc hcap hopen hbuf
      · rw [List.set_comm _ _ hij, List.set_comm _ _ hil]
        exact .tau (s := ⟨_, _⟩) (getp_set_ne (Ne.symm hil) (getp_set_ne (Ne.symm hij) hi)) ha
  | @chan i g g' c ch ch' hi hc hs =>
    cases h2 with
    | @tau j h h' hj hb =>
      by_cases hij : i = j
      · subst hij
        rw [hi] at hj; cases hj
        rw [hb] at hs; cases hs
      · refine .inr ⟨⟨(s.procs.set i g').set j h', s.chans.set c ch'⟩, ?_, ?_⟩
        · exact .tau (s := ⟨_, _⟩) (getp_set_ne hij hj) hb
        · rw [List.set_comm _ _ hij]
          exact .chan (s := ⟨_, s.chans⟩) (getp_set_ne (Ne.symm hij) hi) hc hs
    | @chan j h h' d e e' hj hd he =>
      by_cases hij : i = j
      · subst hij
        rw [hi] at hj; cases hj
        have := hs.chan_eq he
        subst this
        rw [hc] at hd; cases hd
        obtain ⟨rfl, rfl⟩ := hs.unique he
        exact .inl rfl
      · by_cases hcd : c = d
        · subst hcd
          rw [hc] at hd; cases hd
          have hclen : c < s.chans.length := by
            rw [List.getElem?_eq_some_iff] at hc; exact hc.1
          have key : ∃ ch3, CStep (M.act h) c ch' ch3 h' ∧ CStep (M.act g) c e' ch3 g' := by
            rcases hs.kind with ⟨hw, hn⟩ | ⟨hr, hk⟩
            · rcases he.kind with ⟨hw', _⟩ | ⟨_, hk'⟩
              · exact absurd hw' ((hu i j g h hi hj hij).1 c hw)
              · exact hs.comm he hn hk'
            · rcases he.kind with ⟨_, hn'⟩ | ⟨hr', _⟩
              · obtain ⟨ch3, a1, a2⟩ := he.comm hs hn' hk
                exact ⟨ch3, a2, a1⟩
              · exact absurd hr' ((hu i j g h hi hj hij).2 c hr)
          obtain ⟨ch3, k1, k2⟩ := key
          refine .inr ⟨⟨(s.procs.set i g').set j h', s.chans.set c ch3⟩, ?_, ?_⟩
          · have := Step.chan (M := M) (s := ⟨s.procs.set i g', s.chans.set c ch'⟩) (getp_set_ne hij hj)
              (c := c) (List.getElem?_set_self hclen) k1
            rw [List.set_set] at this
            exact this
          · rw [List.set_comm _ _ hij]
            have := Step.chan (M := M) (s := ⟨s.procs.set j h', s.chans.set c e'⟩)
              (getp_set_ne (Ne.symm hij) hi) (c := c) (List.getElem?_set_self hclen) k2
            rw [List.set_set] at this
            exact this
        · refine .inr ⟨⟨(s.procs.set i g').set j h', (s.chans.set c ch').set d e'⟩, ?_, ?_⟩
          · exact .chan (s := ⟨_, _⟩) (getp_set_ne hij hj) (getp_set_ne hcd hd) he
          · rw [List.set_comm _ _ hij, List.set_comm _ _ hcd]
            exact .chan (s := ⟨_, _⟩) (getp_set_ne (Ne.symm hij) hi) (getp_set_ne (Ne.symm hcd) hc) hs
    | @sync j l h m d v h' k e hj hl hb hr hd hcap hopen hbuf =>
      have hcd : c ≠ d := by
        rintro rfl
        rw [hc] at hd; cases hd
        generalize hact : M.act g = a at hs
        cases hs with
        | send _ hroom => omega
        | recv hb' => rw [hbuf] at hb'; cases hb'
        | recvClosed _ hcl => rw [hopen] at hcl; cases hcl
        | close _ =>
          have hij : i ≠ j := by
            rintro rfl; rw [hi] at hj; cases hj; rw [hact] at hb; cases hb
          exact (hu i j g h hi hj hij).1 _ (M.close_mem hact) (M.send_mem hb)
      have hij : i ≠ j := by
        rintro rfl; rw [hi] at hj; cases hj
        rw [hb] at hs; cases hs; exact hcd rfl
      have hil : i ≠ l := by
        rintro rfl; rw [hi] at hl; cases hl
        rw [hr] at hs; cases hs <;> exact hcd rfl
      refine .inr ⟨⟨((s.procs.set i g').set j h').set l (k (some v)), s.chans.set c ch'⟩, ?_, ?_⟩
      · exact .sync (s := ⟨_, _⟩) (getp_set_ne hij hj) (getp_set_ne hil hl) hb hr (getp_set_ne hcd hd)
          hcap hopen hbuf
      · rw [List.set_comm _ _ hij, List.set_comm _ _ hil]
        exact .chan (s := ⟨_, s.chans⟩) (getp_set_ne (Ne.symm hil) (getp_set_ne (Ne.symm hij) hi)) hc hs
  | @sync i l g m c v g' k ch hi hl ha hr hc hcap hopen hbuf =>
    cases h2 with
    | @tau j h h' hj hb =>
      have hij : j ≠ i := by
        rintro rfl; rw [hi] at hj; cases hj; rw [ha] at hb; cases hb
      have hil : j ≠ l := by
        rintro rfl; rw [hl] at hj; cases hj; rw [hr] at hb; cases hb
      refine .inr ⟨⟨((s.procs.set j h').set i g').set l (k (some v)), s.chans⟩, ?_, ?_⟩
      · rw [List.set_comm _ _ hij, List.set_comm _ _ hil]
        exact .tau (s := ⟨_, _⟩) (getp_set_ne (Ne.symm hil) (getp_set_ne (Ne.symm hij) hj)) hb
      · exact .sync (s := ⟨_, s.chans⟩) (getp_set_ne hij hi) (getp_set_ne hil hl) ha hr hc hcap hopen hbuf
    | @chan j h h' d e e' hj hd he =>
      have hdc : d ≠ c := by
        rintro rfl
        rw [hc] at hd; cases hd
        generalize hact : M.act h = a at he
        cases he with
        | send _ hroom => omega
        | recv hb' => rw [hbuf] at hb'; cases hb'
        | recvClosed _ hcl => rw [hopen] at hcl; cases hcl
        | close _ =>
          have hij : i ≠ j := by
            rintro rfl; rw [hi] at hj; cases hj; rw [hact] at ha; cases ha
          exact (hu i j g h hi hj hij).1 _ (M.send_mem ha) (M.close_mem hact)
      have hij : j ≠ i := by
        rintro rfl; rw [hi] at hj; cases hj
        rw [ha] at he; cases he; exact hdc rfl
      have hil : j ≠ l := by
        rintro rfl; rw [hl] at hj; cases hj
        rw [hr] at he; cases he <;> exact hdc rfl
      refine .inr ⟨⟨((s.procs.set j h').set i g').set l (k (some v)), s.chans.set d e'⟩, ?_, ?_⟩
      · rw [List.set_comm _ _ hij, List.set_comm _ _ hil]
        exact .chan (s := ⟨_, s.chans⟩) (getp_set_ne (Ne.symm hil) (getp_set_ne (Ne.symm hij) hj)) hd he
      · exact .sync (s := ⟨_, _⟩) (getp_set_ne hij hi) (getp_set_ne hil hl) ha hr (getp_set_ne hdc hc)
          hcap hopen hbuf
    | @sync j p h q d w h' k' e hj hp hb hr' hd hcap' hopen' hbuf' =>
      by_cases hij : i = j
      · subst hij
        rw [hi] at hj; cases hj
        rw [ha] at hb; cases hb
        have hlp : l = p := by
          by_contra hne
          exact (hu l p m q hl hp hne).2 c (M.recv_mem hr) (M.recv_mem hr')
        subst hlp
        rw [hl] at hp; cases hp
        rw [hr] at hr'; cases hr'
        exact .inl rfl
      · have hcd : c ≠ d := by
          rintro rfl
          exact (hu i j g h hi hj hij).1 c (M.send_mem ha) (M.send_mem hb)
        have hlp : l ≠ p := by
          rintro rfl; rw [hl] at hp; cases hp; rw [hr] at hr'; cases hr'; exact hcd rfl
        have hip : i ≠ p := by
          rintro rfl; rw [hi] at hp; cases hp; rw [ha] at hr'; cases hr'
        have hlj : l ≠ j := by
          rintro rfl; rw [hl] at hj; cases hj; rw [hr] at hb; cases hb
        refine .inr ⟨⟨(((s.procs.set i g').set l (k (some v))).set j h').set p (k' (some w)), s.chans⟩,
          ?_, ?_⟩
        · exact .sync (s := ⟨_, s.chans⟩) (getp_set_ne hlj (getp_set_ne hij hj))
            (getp_set_ne hlp (getp_set_ne hip hp)) hb hr' hd hcap' hopen' hbuf'
        · have := Step.sync (M := M) (s := ⟨(s.procs.set j h').set p (k' (some w)), s.chans⟩)
            (getp_set_ne (Ne.symm hip) (getp_set_ne (Ne.symm hij) hi))
            (getp_set_ne (Ne.symm hlp) (getp_set_ne (Ne.symm hlj) hl)) ha hr hc hcap hopen hbuf
          have e1 : ((((s.procs.set i g').set l (k (some v))).set j h').set p (k' (some w)))
              = ((((s.procs.set j h').set p (k' (some w))).set i g').set l (k (some v))) := by
            rw [List.set_comm _ _ hlj, List.set_comm _ _ hlp, List.set_comm _ _ hij, List.set_comm _ _ hip]
          rw [e1]; exact this

/-- From one complete execution: every step can be completed to the same end in one step less. -/
theorem Steps.descend {n : Nat} {s t u : Cfg M} (hu : SingleUse s) (h : Steps n s t) (ht : Terminal t)
    (hs : Step s u) : ∃ m, n = m + 1 ∧ Steps m u t := by
  induction n generalizing s u with
  | zero =>
    cases h
    exact absurd hs (ht _)
  | succ n ih =>
    cases h with
    | @cons _ _ s' _ h1 h2 =>
      refine ⟨n, rfl, ?_⟩
      rcases diamond hu h1 hs with rfl | ⟨w, hw1, hw2⟩
      · exact h2
      · obtain ⟨m, rfl, hm⟩ := ih (hu.step h1) h2 hw1
        exact .cons hw2 hm

theorem SingleUse.steps {n : Nat} {s t : Cfg M} (hu : SingleUse s) (h : Steps n s t) : SingleUse t := by
  induction h with
  | refl => exact hu
  | cons hs _ ih => exact ih (hu.step hs)

/-- Closed channels stay closed. -/
theorem closed_stays {s t : Cfg M} (h : Step s t) {c : Nat} {ch : Chan V} (hc : s.chans[c]? = some ch)
    (hcl : ch.closed = true) : ∃ ch', t.chans[c]? = some ch' ∧ ch'.closed = true := by
  cases h with
  | tau _ _ => exact ⟨ch, hc, hcl⟩
  | @chan i g g' d e e' hi hd hs =>
    by_cases hcd : d = c
    · subst hcd
      rw [hc] at hd; cases hd
      have hlen : d < s.chans.length := by
        rw [List.getElem?_eq_some_iff] at hc; exact hc.1
      refine ⟨e', List.getElem?_set_self hlen, ?_⟩
      generalize M.act g = a at hs
      cases hs <;> first | exact hcl | rfl
    · exact ⟨ch, getp_set_ne hcd hc, hcl⟩
  | sync _ _ _ _ _ _ _ _ => exact ⟨ch, hc, hcl⟩

/-- A goroutine about to panic stays so. -/
theorem Panics.step {s t : Cfg M} (h : Panics s) (hs : Step s t) : Panics t := by
  obtain ⟨i, g, c, ch, hi, hc, hcl, hact⟩ := h
  obtain ⟨ch', hc', hcl'⟩ := closed_stays hs hc hcl
  refine ⟨i, g, c, ch', ?_, hc', hcl', hact⟩
  cases hs with
  | @tau j h h' hj hb =>
    refine getp_set_ne ?_ hi
    rintro rfl
    rw [hi] at hj; cases hj
    rcases hact with ⟨v, g', h⟩ | ⟨g', h⟩ <;> (rw [hb] at h; cases h)
  | @chan j h h' d e e' hj hd he =>
    refine getp_set_ne ?_ hi
    rintro rfl
    rw [hi] at hj; cases hj
    rcases hact with ⟨v, g', h⟩ | ⟨g', h⟩
    · rw [h] at he
      cases he with
      | send hopen _ => rw [hc] at hd; cases hd; rw [hopen] at hcl; cases hcl
    · rw [h] at he
      cases he with
      | close hopen => rw [hc] at hd; cases hd; rw [hopen] at hcl; cases hcl
  | @sync j l h m d v h' k e hj hl hb hr hd hcap hopen hbuf =>
    refine getp_set_ne ?_ (getp_set_ne ?_ hi)
    · rintro rfl
      rw [hi] at hl; cases hl
      rcases hact with ⟨v, g', h⟩ | ⟨g', h⟩ <;> (rw [hr] at h; cases h)
    · rintro rfl
      rw [hi] at hj; cases hj
      rcases hact with ⟨v, g', h⟩ | ⟨g', h⟩
      · rw [hb] at h; cases h
        rw [hc] at hd; cases hd; rw [hopen] at hcl; cases hcl
      · rw [hb] at h; cases h

theorem Panics.steps {n : Nat} {s t : Cfg M} (h : Panics s) (hs : Steps n s t) : Panics t := by
  induction hs with
  | refl => exact h
  | cons h1 _ ih => exact ih (h.step h1)

/-- **Schedule independence.** In a network where every channel has one writer and one reader, one
complete execution that does not panic determines all executions. -/
theorem alwaysEndsIn {n : Nat} {s t : Cfg M} (hu : SingleUse s) (h : Steps n s t) (ht : Terminal t)
    (hp : ¬ Panics t) : AlwaysEndsIn s t := by
  have key : ∀ m u, Steps m s u → ∃ k, n = m + k ∧ Steps k u t := by
    intro m
    induction m generalizing n s with
    | zero =>
      intro u hm
      cases hm
      exact ⟨n, by omega, h⟩
    | succ m ih =>
      intro u hm
      cases hm with
      | cons h1 h2 =>
        obtain ⟨n', rfl, hn'⟩ := h.descend hu ht h1
        obtain ⟨k, rfl, hk⟩ := ih (hu.step h1) hn' u h2
        exact ⟨k, by omega, hk⟩
  refine ⟨⟨n, fun m u hm => ?_⟩, fun m u hm => ?_, fun m u hm htu => ?_, ht, fun m u hm hpu => ?_⟩
  · obtain ⟨k, e, _⟩ := key m u hm; omega
  · obtain ⟨k, _, hk⟩ := key m u hm; exact ⟨k, hk⟩
  · obtain ⟨k, _, hk⟩ := key m u hm
    cases hk with
    | refl => rfl
    | cons h1 _ => exact absurd h1 (htu _)
  · obtain ⟨k, _, hk⟩ := key m u hm
    exact hp (hpu.steps hk)

end Verif.Conc
