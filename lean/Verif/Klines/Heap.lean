import Verif.Klines.Types
import Mathlib.Data.List.Basic

/-!
# Items in memory: in-place filtering of `[]*Candle`

Candles live in cells, slices of candle pointers in arrays; an item owns neither. A pointer is
`none` (nil) or the address of a cell. This makes writes through shared slices and shared candle
pointers visible.
-/

namespace Verif.Klines
open Verif

variable {F : Type}

/-- Memory: candle cells and backing arrays of `[]*Candle` slices. -/
structure Mem (F : Type) where
  cells : List (Candle F)
  arrays : List (List (Option Nat))

/-- A slice header of type `[]*Candle`. -/
structure PSlice where
  arr : Nat
  off : Nat
  len : Nat
  deriving DecidableEq, Repr

/-- Models utils/klines/kline_type.go:61-67 `Item` with its slice header. -/
structure ItemH where
  exchange : String
  interval : Int
  symbol : String
  code : String
  candles : PSlice
  deriving DecidableEq, Repr

/-- Read `s[i]`. -/
def Mem.load (m : Mem F) (s : PSlice) (i : Int) : Go (Option Nat) :=
  if 0 ≤ i ∧ i < s.len then
    match m.arrays[s.arr]? with
    | some a => idx a (s.off + i)
    | none => .error .index
  else .error .index

/-- Write `s[i] = p`. -/
def Mem.store (m : Mem F) (s : PSlice) (i : Int) (p : Option Nat) : Go (Mem F) :=
  if 0 ≤ i ∧ i < s.len then
    match m.arrays[s.arr]? with
    | some a => do
      let a' ← setAt a (s.off + i) p
      pure { m with arrays := m.arrays.set s.arr a' }
    | none => .error .index
  else .error .index

/-- Follow a candle pointer. -/
def Mem.deref (m : Mem F) (p : Option Nat) : Go (Candle F) :=
  match p with
  | none => .error .nilDeref
  | some a =>
    match m.cells[a]? with
    | some c => .ok c
    | none => .error .nilDeref

/-- `&c`: a new candle cell. -/
def Mem.alloc (m : Mem F) (c : Candle F) : Mem F × Option Nat :=
  ({ m with cells := m.cells ++ [c] }, some m.cells.length)

/-- `make([]*Candle, n)`: a new array of nil pointers. -/
def Mem.makeSlice (m : Mem F) (n : Int) : Go (Mem F × PSlice) := do
  let a ← Verif.mk n (none : Option Nat)
  pure ({ m with arrays := m.arrays ++ [a] }, { arr := m.arrays.length, off := 0, len := n.toNat })

/-- `s[:n]`. -/
def PSlice.upTo (s : PSlice) (n : Int) : Go PSlice :=
  if 0 ≤ n ∧ n ≤ s.len then .ok { s with len := n.toNat } else .error .index

/-- Models utils/klines/kline.go:164-173 `RemoveOutsideRange`. Instants are nanoseconds. -/
def RemoveOutsideRange (m : Mem F) (e : ItemH) (start stop : Int) : Go (Mem F × ItemH) := do
  let (m, target) ← goFor 0 e.candles.len (m, (0 : Int)) fun i (m, target) => do
    let keep ← m.load e.candles i
    let c ← m.deref keep
    if c.timeUnix = unix start ∨ (c.timeUnix > unix start ∧ c.timeUnix < unix stop) then do
      let m ← m.store e.candles target keep
      pure (m, target + 1)
    else pure (m, target)
  let s ← e.candles.upTo target
  pure (m, { e with candles := s })

/-- Models utils/klines/kline.go:145-161 `RemoveOutsideRangeCopy`. -/
def RemoveOutsideRangeCopy (m : Mem F) (e : ItemH) (start stop : Int) : Go (Mem F × ItemH) := do
  let (m, cs) ← m.makeSlice e.candles.len
  let m ← goFor 0 e.candles.len m fun i m => do
    let candle ← m.load e.candles i
    let copied ← m.deref candle
    let (m, p) := m.alloc copied
    m.store cs i p
  RemoveOutsideRange m
    { exchange := e.exchange, interval := e.interval, symbol := "", code := "", candles := cs } start stop

/-- Models utils/klines/kline.go:176-190 `RemoveDuplicates`; the map of seen timestamps is the list of
its keys. -/
def RemoveDuplicates (m : Mem F) (e : ItemH) : Go (Mem F × ItemH) := do
  let (m, _, target) ← goFor 0 e.candles.len (m, ([] : List Int), (0 : Int))
    fun i (m, lookup, target) => do
      let keep ← m.load e.candles i
      let c ← m.deref keep
      if ¬ c.timeUnix ∈ lookup then do
        let m ← m.store e.candles target keep
        pure (m, c.timeUnix :: lookup, target + 1)
      else pure (m, lookup, target)
  let s ← e.candles.upTo target
  pure (m, { e with candles := s })

/-- Models utils/klines/kline.go:263-266 `Clear`: the slots become nil, then the item forgets the
slice (the nil slice is the empty slice of the same array). -/
def Clear (m : Mem F) (e : ItemH) : Go (Mem F × ItemH) := do
  let m ← goFor 0 e.candles.len m fun i m => m.store e.candles i none
  pure (m, { e with candles := { e.candles with len := 0 } })

/-- Models utils/klines/kline.go:193-199 `SortCandlesByTimestamp`: by value; `sort.Slice` may leave the slice in
any order that is a permutation of the old one and in which no later element is less than an earlier
one. The two comparison functions are those of the two branches. -/
def SortCandlesByTimestamp (desc : Bool) (cs cs' : List (Candle F)) : Prop :=
  cs'.Perm cs ∧
    if desc then cs'.Pairwise (fun a b => ¬ b.timeUnix < a.timeUnix)
    else cs'.Pairwise (fun a b => ¬ b.timeUnix > a.timeUnix)

/-! ## What an item shows -/

/-- The pointers in a slice. -/
def Mem.ptrs (m : Mem F) (s : PSlice) : List (Option Nat) :=
  ((m.arrays[s.arr]?.getD []).drop s.off).take s.len

/-- The candles an item shows: what its pointers point to, in order. -/
def Mem.shown (m : Mem F) (e : ItemH) : List (Candle F) :=
  (m.ptrs e.candles).filterMap fun p => p.bind fun a => m.cells[a]?

/-- The slice lies inside its array and every pointer in it points to a candle. -/
def Mem.Valid (m : Mem F) (e : ItemH) : Prop :=
  (∃ a, m.arrays[e.candles.arr]? = some a ∧ e.candles.off + e.candles.len ≤ a.length) ∧
  ∀ p ∈ m.ptrs e.candles, ∃ a, p = some a ∧ a < m.cells.length

/-! ## The in-place filter loop -/

/-- Candle behind the pointer at position `i` of a valid slice. -/
theorem Mem.Valid.at {m : Mem F} {e : ItemH} (h : m.Valid e) {i : Nat} (hi : i < e.candles.len) :
    ∃ a c, (m.ptrs e.candles)[i]? = some (some a) ∧ m.cells[a]? = some c := by
  obtain ⟨⟨ar, har, hl⟩, hp⟩ := h
  have hlen : i < (m.ptrs e.candles).length := by
    simp only [Mem.ptrs, har, Option.getD_some, List.length_take, List.length_drop]; omega
  obtain ⟨a, ha, hlt⟩ := hp _ (List.getElem_mem hlen)
  exact ⟨a, m.cells[a], by rw [List.getElem?_eq_getElem hlen, ha], List.getElem?_eq_getElem hlt⟩

theorem Mem.Valid.length {m : Mem F} {e : ItemH} (h : m.Valid e) :
    (m.ptrs e.candles).length = e.candles.len := by
  obtain ⟨⟨ar, har, hl⟩, _⟩ := h
  simp only [Mem.ptrs, har, Option.getD_some, List.length_take, List.length_drop]; omega

/-- The candle pointed to, for valid pointers. -/
def Mem.cand (m : Mem F) (p : Option Nat) : Option (Candle F) := p.bind fun a => m.cells[a]?

theorem Mem.load_eq {m : Mem F} {s : PSlice} {a : List (Option Nat)} (ha : m.arrays[s.arr]? = some a)
    {i : Nat} (hi : i < s.len) {p : Option Nat} (hp : a[s.off + i]? = some p) :
    m.load s i = .ok p := by
  unfold Mem.load
  rw [if_pos (by omega), ha]
  show idx a ((s.off : Int) + (i : Int)) = _
  rw [show (s.off : Int) + (i : Int) = ((s.off + i : Nat) : Int) by omega]
  exact idx_of_getElem? hp

theorem Mem.store_eq {m : Mem F} {s : PSlice} {a : List (Option Nat)} (ha : m.arrays[s.arr]? = some a)
    (hl : s.off + s.len ≤ a.length) {i : Nat} (hi : i < s.len) (p : Option Nat) :
    m.store s i p = .ok { m with arrays := m.arrays.set s.arr (a.set (s.off + i) p) } := by
  unfold Mem.store
  rw [if_pos (by omega), ha]
  show (setAt a ((s.off : Int) + (i : Int)) p >>= _) = _
  rw [show (s.off : Int) + (i : Int) = ((s.off + i : Nat) : Int) by omega, setAt_nat (by omega)]
  rfl

/-- Memory with one backing array replaced. -/
def Mem.withArr (m : Mem F) (arr : Nat) (a : List (Option Nat)) : Mem F :=
  { m with arrays := m.arrays.set arr a }

/-- A backing array during in-place filtering: the kept pointers `ks` so far, then old content. -/
def overlay (a : List (Option Nat)) (off : Nat) (ks : List (Option Nat)) : List (Option Nat) :=
  a.take off ++ ks ++ a.drop (off + ks.length)

theorem overlay_nil (a : List (Option Nat)) (off : Nat) : overlay a off [] = a := by
  simp [overlay]

theorem overlay_length {a : List (Option Nat)} {off : Nat} {ks : List (Option Nat)}
    (h : off + ks.length ≤ a.length) : (overlay a off ks).length = a.length := by
  simp [overlay]; omega

theorem overlay_get {a : List (Option Nat)} {off : Nat} {ks : List (Option Nat)} {j : Nat}
    (h : off + ks.length ≤ j) : off ≤ a.length → (overlay a off ks)[j]? = a[j]? := by
  intro ho
  simp only [overlay, List.append_assoc]
  rw [List.getElem?_append_right (by simp; omega), List.getElem?_append_right (by simp; omega),
    List.getElem?_drop]
  congr 1; simp; omega

theorem overlay_set {a : List (Option Nat)} {off : Nat} {ks : List (Option Nat)} {p : Option Nat}
    (h : off + ks.length < a.length) :
    (overlay a off ks).set (off + ks.length) p = overlay a off (ks ++ [p]) := by
  have hl : (a.take off ++ ks).length = off + ks.length := by simp; omega
  unfold overlay
  rw [List.set_append_right _ _ (by rw [hl])]
  rw [hl, Nat.sub_self]
  have : a.drop (off + ks.length) = a[off + ks.length] :: a.drop (off + ks.length + 1) :=
    List.drop_eq_getElem_cons h
  rw [this, List.set_cons_zero]
  simp [Nat.add_assoc]

theorem overlay_ptrs {a : List (Option Nat)} {off : Nat} {ks : List (Option Nat)}
    (h : off ≤ a.length) : ((overlay a off ks).drop off).take ks.length = ks := by
  unfold overlay
  rw [List.append_assoc, List.drop_append_of_le_length (by simp; omega)]
  simp

/-- Generic in-place filter: a loop that reads slot `i`, decides by a state `σ`, and writes kept
pointers to the front. `keep s c` decides, `upd s c` is the new state when kept. -/
theorem filter_loop {σ : Type} (m : Mem F) (e : ItemH) (hv : m.Valid e)
    (keep : σ → Candle F → Bool) (upd : σ → Candle F → σ) (s0 : σ)
    (body : Int → Mem F × σ × Int → Go (Mem F × σ × Int))
    (hbody : ∀ i m s t, body i (m, s, t) = (do
      let p ← m.load e.candles i
      let c ← m.deref p
      if keep s c then do
        let m ← m.store e.candles t p
        pure (m, upd s c, t + 1)
      else pure (m, s, t))) :
    ∃ (ks : List (Option Nat)) (a : List (Option Nat)) (s' : σ),
      m.arrays[e.candles.arr]? = some a ∧
      goFor 0 e.candles.len (m, s0, (0 : Int)) body
        = .ok (m.withArr e.candles.arr (overlay a e.candles.off ks), s',
            (ks.length : Int)) ∧
      ks.length ≤ e.candles.len ∧
      ((m.ptrs e.candles).filterMap m.cand).foldl
        (fun (st : List (Candle F) × σ) c =>
          if keep st.2 c then (st.1 ++ [c], upd st.2 c) else st) ([], s0)
        = (ks.filterMap m.cand, s') ∧
      ∀ p ∈ ks, p ∈ m.ptrs e.candles := by
  obtain ⟨⟨a, ha, hl⟩, hp⟩ := id hv
  have hptrs : ∀ i < e.candles.len, a[e.candles.off + i]? = (m.ptrs e.candles)[i]? := by
    intro i hi
    simp only [Mem.ptrs, ha, Option.getD_some]
    rw [List.getElem?_take, if_pos hi, List.getElem?_drop]
  have harr : e.candles.arr < m.arrays.length := by
    by_contra h
    rw [List.getElem?_eq_none (by omega)] at ha; cases ha
  obtain ⟨⟨m', s', t'⟩, hrun, ks, rfl, rfl, hk1, hk2, hk3⟩ := goFor_inv (n := e.candles.len)
    (s := (m, s0, (0 : Int))) (body := body)
    (fun k st => ∃ ks : List (Option Nat),
      st.1 = m.withArr e.candles.arr (overlay a e.candles.off ks) ∧
      st.2.2 = (ks.length : Int) ∧ ks.length ≤ k ∧
      (((m.ptrs e.candles).take k).filterMap m.cand).foldl
        (fun (st : List (Candle F) × σ) c =>
          if keep st.2 c then (st.1 ++ [c], upd st.2 c) else st) ([], s0)
        = (ks.filterMap m.cand, st.2.1) ∧
      ∀ p ∈ ks, p ∈ m.ptrs e.candles)
    ⟨[], by
      refine ⟨?_, rfl, le_refl _, by simp, by simp⟩
      rw [overlay_nil]
      have : m.arrays.set e.candles.arr a = m.arrays := by
        apply List.ext_getElem?
        intro j
        rw [List.getElem?_set]
        split
        · next h => subst h; exact ha.symm
        · rfl
      rw [Mem.withArr, this]⟩
    (by
      rintro k ⟨m1, s1, t1⟩ hk ⟨ks, rfl, rfl, h1, h2, h3⟩
      obtain ⟨ad, c, had, hc⟩ := hv.at hk
      have hget : (overlay a e.candles.off ks)[e.candles.off + k]? = some (some ad) := by
        rw [overlay_get (by omega) (by omega), hptrs k hk, had]
      have hl' : e.candles.off + e.candles.len ≤ (overlay a e.candles.off ks).length := by
        rw [overlay_length (by omega)]; exact hl
      have harr' : (m.withArr e.candles.arr (overlay a e.candles.off ks)).arrays[e.candles.arr]?
          = some (overlay a e.candles.off ks) := by
        rw [Mem.withArr, List.getElem?_set]; simp [harr]
      have hload := Mem.load_eq (m := m.withArr e.candles.arr (overlay a e.candles.off ks)) (s := e.candles) harr' hk hget
      have hderef : (m.withArr e.candles.arr (overlay a e.candles.off ks)).deref (some ad) = .ok c := by
        simp [Mem.deref, Mem.withArr, hc]
      have htake : ((m.ptrs e.candles).take (k + 1)).filterMap m.cand
          = ((m.ptrs e.candles).take k).filterMap m.cand ++ [c] := by
        rw [List.take_add_one, had, List.filterMap_append]
        simp [Mem.cand, hc]
      have hmem : (some ad) ∈ m.ptrs e.candles := List.mem_of_getElem? had
      simp only [hbody, hload, ok_bind, hderef]
      by_cases hkp : keep s1 c = true
      · rw [if_pos hkp, Mem.store_eq (m := m.withArr e.candles.arr (overlay a e.candles.off ks)) harr' hl' (i := ks.length) (by omega)]
        refine ⟨_, rfl, ks ++ [some ad], ?_, ?_, ?_, ?_, ?_⟩
        · simp only [Mem.withArr, List.set_set]
          rw [overlay_set (by omega)]
        · simp
        · simp; omega
        · rw [htake, List.foldl_append, h2]
          simp [hkp, Mem.cand, hc]
        · intro p hp'
          rcases List.mem_append.mp hp' with h | h
          · exact h3 p h
          · simp at h; subst h; exact hmem
      · rw [if_neg hkp]
        refine ⟨_, rfl, ks, rfl, rfl, by omega, ?_, h3⟩
        rw [htake, List.foldl_append, h2]
        simp [hkp])
  refine ⟨ks, a, s', ha, hrun, hk1, ?_, hk3⟩
  rw [← hk2, List.take_of_length_le (by rw [hv.length])]

/-- After the loop, the item cut to the kept length shows the kept candles, and is valid. -/
theorem shown_after {m : Mem F} {e : ItemH} (hv : m.Valid e) {a ks : List (Option Nat)}
    (ha : m.arrays[e.candles.arr]? = some a) (hk : ks.length ≤ e.candles.len)
    (hsub : ∀ p ∈ ks, p ∈ m.ptrs e.candles) :
    let m' : Mem F := m.withArr e.candles.arr (overlay a e.candles.off ks)
    let e' : ItemH := { e with candles := { e.candles with len := ks.length } }
    m'.shown e' = ks.filterMap m.cand ∧ m'.Valid e' := by
  obtain ⟨⟨a', ha', hl⟩, hp⟩ := id hv
  rw [ha] at ha'; cases ha'
  have harr : e.candles.arr < m.arrays.length := by
    by_contra h
    rw [List.getElem?_eq_none (by omega)] at ha; cases ha
  intro m' e'
  have hptr : m'.ptrs e'.candles = ks := by
    show ((((m.arrays.set e.candles.arr (overlay a e.candles.off ks))[e.candles.arr]?.getD []).drop
      e.candles.off).take ks.length) = ks
    rw [List.getElem?_set]
    simp only [harr, if_true]
    exact overlay_ptrs (by omega)
  refine ⟨?_, ⟨overlay a e.candles.off ks, ?_, ?_⟩, ?_⟩
  · unfold Mem.shown
    rw [hptr]; rfl
  · show (m.arrays.set e.candles.arr (overlay a e.candles.off ks))[e.candles.arr]? = _
    rw [List.getElem?_set]; simp [harr]
  · show e.candles.off + ks.length ≤ _
    rw [overlay_length (by omega)]; omega
  · rw [hptr]
    intro p hp'
    exact hp p (hsub p hp')

/-- The in-place filter keeps the pointers of the kept candles. -/
theorem RemoveOutsideRange_run (m : Mem F) (e : ItemH) (hv : m.Valid e) (start stop : Int) :
    ∃ ks a, m.arrays[e.candles.arr]? = some a ∧ ks.length ≤ e.candles.len ∧
      (∀ p ∈ ks, p ∈ m.ptrs e.candles) ∧
      ks.filterMap m.cand = (m.shown e).filter (fun c => decide (c.timeUnix = unix start ∨
        (c.timeUnix > unix start ∧ c.timeUnix < unix stop))) ∧
      RemoveOutsideRange m e start stop
        = .ok (m.withArr e.candles.arr (overlay a e.candles.off ks),
               { e with candles := { e.candles with len := ks.length } }) := by
  let P : Candle F → Bool := fun c => decide (c.timeUnix = unix start ∨
        (c.timeUnix > unix start ∧ c.timeUnix < unix stop))
  obtain ⟨ks, a, s', ha, hrun, hk, hfold, hsub⟩ := filter_loop (σ := Unit) m e hv
    (fun _ c => P c) (fun _ _ => ()) ()
    (fun i st => do
      let p ← st.1.load e.candles i
      let c ← st.1.deref p
      if P c then do
        let m ← st.1.store e.candles st.2.2 p
        pure (m, (), st.2.2 + 1)
      else pure (st.1, (), st.2.2)) (fun i m s t => rfl)
  refine ⟨ks, a, ha, hk, hsub, ?_, ?_⟩
  · have : ∀ (l : List (Candle F)) (acc : List (Candle F)),
        l.foldl (fun (st : List (Candle F) × Unit) c =>
          if P c then (st.1 ++ [c], ()) else st) (acc, ()) = (acc ++ l.filter P, ()) := by
      intro l
      induction l with
      | nil => simp
      | cons c l ih =>
        intro acc
        rw [List.foldl_cons]
        by_cases h : P c = true
        · rw [if_pos h, ih, List.filter_cons_of_pos h]; simp
        · rw [if_neg h, ih, List.filter_cons_of_neg h]
    have h2 := this ((m.ptrs e.candles).filterMap m.cand) []
    have h3 := congrArg Prod.fst (hfold.symm.trans h2)
    rw [List.nil_append] at h3
    exact h3
  · have hsim := goFor_sim (f := fun st : Mem F × Unit × Int => (st.1, st.2.2))
      (body' := fun i (m, target) => do
          let keep ← m.load e.candles i
          let c ← m.deref keep
          if c.timeUnix = unix start ∨ (c.timeUnix > unix start ∧ c.timeUnix < unix stop) then do
            let m ← m.store e.candles target keep
            pure (m, target + 1)
          else pure (m, target))
      (by
        rintro i ⟨m0, u, t⟩ r h
        simp only at h ⊢
        cases hl : m0.load e.candles i with
        | error x => rw [hl] at h; cases h
        | ok p =>
          rw [hl] at h
          simp only [ok_bind] at h ⊢
          cases hd : m0.deref p with
          | error x => rw [hd] at h; cases h
          | ok c =>
            rw [hd] at h
            simp only [ok_bind] at h ⊢
            by_cases hP : P c = true
            · rw [if_pos hP] at h
              rw [if_pos (by simpa [P] using hP)]
              cases hs : m0.store e.candles t p with
              | error x => rw [hs] at h; cases h
              | ok m1 => rw [hs] at h; cases h; rfl
            · rw [if_neg hP] at h
              rw [if_neg (by simpa [P] using hP)]
              cases h; rfl) hrun
    unfold RemoveOutsideRange
    rw [hsim]
    simp only [ok_bind, PSlice.upTo]
    rw [if_pos (by omega)]
    rfl

/-- First candle per timestamp, timestamps in `seen` excluded (specification of the loop). -/
def firsts : List (Candle F) → List Int → List (Candle F)
  | [], _ => []
  | c :: l, seen => if c.timeUnix ∈ seen then firsts l seen else c :: firsts l (c.timeUnix :: seen)

theorem RemoveDuplicates_run (m : Mem F) (e : ItemH) (hv : m.Valid e) :
    ∃ ks a, m.arrays[e.candles.arr]? = some a ∧ ks.length ≤ e.candles.len ∧
      (∀ p ∈ ks, p ∈ m.ptrs e.candles) ∧
      ks.filterMap m.cand = firsts (m.shown e) [] ∧
      RemoveDuplicates m e
        = .ok (m.withArr e.candles.arr (overlay a e.candles.off ks),
               { e with candles := { e.candles with len := ks.length } }) := by
  obtain ⟨ks, a, s', ha, hrun, hk, hfold, hsub⟩ := filter_loop (σ := List Int) m e hv
    (fun seen c => !decide (c.timeUnix ∈ seen)) (fun seen c => c.timeUnix :: seen) []
    (fun i st => do
      let p ← st.1.load e.candles i
      let c ← st.1.deref p
      if ¬ c.timeUnix ∈ st.2.1 then do
        let m ← st.1.store e.candles st.2.2 p
        pure (m, c.timeUnix :: st.2.1, st.2.2 + 1)
      else pure (st.1, st.2.1, st.2.2)) (fun i m s t => by simp)
  refine ⟨ks, a, ha, hk, hsub, ?_, ?_⟩
  · have : ∀ (l : List (Candle F)) (acc : List (Candle F)) (seen : List Int),
        (l.foldl (fun (st : List (Candle F) × List Int) c =>
          if (!decide (c.timeUnix ∈ st.2)) = true then (st.1 ++ [c], c.timeUnix :: st.2) else st)
          (acc, seen)).1 = acc ++ firsts l seen := by
      intro l
      induction l with
      | nil => simp [firsts]
      | cons c l ih =>
        intro acc seen
        rw [List.foldl_cons]
        by_cases h : c.timeUnix ∈ seen
        · simp only [h, decide_true, Bool.not_true, Bool.false_eq_true, if_false]
          rw [ih, firsts, if_pos h]
        · simp only [h, decide_false, Bool.not_false, if_true]
          rw [ih, firsts, if_neg h]; simp
    have h2 := this ((m.ptrs e.candles).filterMap m.cand) [] []
    rw [hfold, List.nil_append] at h2
    exact h2
  · unfold RemoveDuplicates
    have hb : (fun (i : Int) (x : Mem F × List Int × Int) => (match x with
        | (m, lookup, target) => do
          let keep ← m.load e.candles i
          let c ← m.deref keep
          if ¬ c.timeUnix ∈ lookup then do
            let m ← m.store e.candles target keep
            pure (m, c.timeUnix :: lookup, target + 1)
          else pure (m, lookup, target) : Go (Mem F × List Int × Int)))
      = (fun i st => do
      let p ← st.1.load e.candles i
      let c ← st.1.deref p
      if ¬ c.timeUnix ∈ st.2.1 then do
        let m ← st.1.store e.candles st.2.2 p
        pure (m, c.timeUnix :: st.2.1, st.2.2 + 1)
      else pure (st.1, st.2.1, st.2.2)) := rfl
    rw [hb, hrun]
    simp only [ok_bind, PSlice.upTo]
    rw [if_pos (by omega)]
    rfl

/-! ## Ownership: nothing below the marks `nC` (cells) and `nA` (arrays) is reachable or changed -/

/-- The array `arr` is above the mark and only points to cells above the mark. -/
structure Owned (nC nA : Nat) (arr : Nat) (m : Mem F) : Prop where
  arr_ge : nA ≤ arr
  cells_ge : nC ≤ m.cells.length
  ptr_ge : ∀ a, m.arrays[arr]? = some a → ∀ x, some x ∈ a → nC ≤ x

/-- Two memories agree below the marks. -/
def Same (nC nA : Nat) (m m' : Mem F) : Prop :=
  (∀ j < nC, m'.cells[j]? = m.cells[j]?) ∧ ∀ j < nA, m'.arrays[j]? = m.arrays[j]?

theorem Same.refl (nC nA : Nat) (m : Mem F) : Same nC nA m m := ⟨fun _ _ => rfl, fun _ _ => rfl⟩

theorem Same.trans {nC nA : Nat} {m m' m'' : Mem F} (h : Same nC nA m m') (h' : Same nC nA m' m'') :
    Same nC nA m m'' :=
  ⟨fun j hj => (h'.1 j hj).trans (h.1 j hj), fun j hj => (h'.2 j hj).trans (h.2 j hj)⟩

theorem Mem.load_mem {m : Mem F} {s : PSlice} {i : Int} {p : Option Nat} (h : m.load s i = .ok p) :
    ∃ a, m.arrays[s.arr]? = some a ∧ p ∈ a := by
  unfold Mem.load at h
  split at h
  · split at h
    · next a ha => exact ⟨a, ha, List.mem_of_getElem? (idx_ok_iff.mp h).2⟩
    · cases h
  · cases h

theorem Mem.store_owned {nC nA : Nat} {m m' : Mem F} {s : PSlice} {i : Int} {p : Option Nat}
    (ho : Owned nC nA s.arr m) (hp : ∀ x, p = some x → nC ≤ x) (h : m.store s i p = .ok m') :
    Owned nC nA s.arr m' ∧ Same nC nA m m' := by
  unfold Mem.store at h
  split at h
  · split at h
    · next a ha =>
      unfold setAt at h
      split at h
      · cases h
        refine ⟨⟨ho.arr_ge, ho.cells_ge, ?_⟩, fun _ _ => rfl, fun j hj => ?_⟩
        · intro a' ha' x hx
          simp only [List.getElem?_set, if_true] at ha'
          split at ha'
          · cases ha'
            rcases List.mem_or_eq_of_mem_set hx with h | h
            · exact ho.ptr_ge a ha x h
            · exact hp x h.symm
          · cases ha'
        · simp only [List.getElem?_set]
          rw [if_neg]
          have := ho.arr_ge
          omega
      · cases h
    · cases h
  · cases h

theorem Mem.alloc_owned {nC nA arr : Nat} {m : Mem F} (ho : Owned nC nA arr m) (c : Candle F) :
    Owned nC nA arr (m.alloc c).1 ∧ Same nC nA m (m.alloc c).1 ∧
      ∀ x, (m.alloc c).2 = some x → nC ≤ x := by
  refine ⟨⟨ho.arr_ge, ?_, ho.ptr_ge⟩, ⟨fun j hj => ?_, fun _ _ => rfl⟩, ?_⟩
  · have := ho.cells_ge; simp [Mem.alloc]; omega
  · have := ho.cells_ge
    simp only [Mem.alloc]
    rw [List.getElem?_append_left (by omega)]
  · intro x hx
    cases hx; exact ho.cells_ge

theorem PSlice.upTo_arr {s s' : PSlice} {n : Int} (h : s.upTo n = .ok s') : s'.arr = s.arr := by
  unfold PSlice.upTo at h
  split at h <;> cases h
  rfl

theorem RemoveOutsideRange_owned {nC nA : Nat} {m m' : Mem F} {e e' : ItemH} {start stop : Int}
    (ho : Owned nC nA e.candles.arr m) (h : RemoveOutsideRange m e start stop = .ok (m', e')) :
    Owned nC nA e'.candles.arr m' ∧ Same nC nA m m' := by
  unfold RemoveOutsideRange at h
  generalize hg : goFor 0 (e.candles.len : Int) (m, (0 : Int)) _ = g at h
  cases g with
  | error x => cases h
  | ok r =>
    obtain ⟨m1, t⟩ := r
    simp only [ok_bind] at h
    cases hu : e.candles.upTo t with
    | error x => rw [hu] at h; cases h
    | ok s =>
      rw [hu] at h; cases h
      have := goFor_ok_inv (P := fun st : Mem F × Int => Owned nC nA e.candles.arr st.1 ∧ Same nC nA m st.1)
        (by
          rintro i ⟨m0, t0⟩ ⟨m2, t2⟩ ⟨h1, h2⟩ hb
          simp only at hb
          cases hl : m0.load e.candles i with
          | error x => rw [hl] at hb; cases hb
          | ok p =>
            rw [hl] at hb
            simp only [ok_bind] at hb
            cases hd : m0.deref p with
            | error x => rw [hd] at hb; cases hb
            | ok c =>
              rw [hd] at hb
              simp only [ok_bind] at hb
              split at hb
              · cases hs : m0.store e.candles t0 p with
                | error x => rw [hs] at hb; cases hb
                | ok m3 =>
                  rw [hs] at hb; cases hb
                  obtain ⟨a, ha, hpa⟩ := Mem.load_mem hl
                  obtain ⟨h3, h4⟩ := Mem.store_owned h1
                    (fun x hx => h1.ptr_ge a ha x (hx ▸ hpa)) hs
                  exact ⟨h3, h2.trans h4⟩
              · cases hb; exact ⟨h1, h2⟩) ⟨ho, Same.refl _ _ _⟩ hg
      simp only [PSlice.upTo_arr hu]
      exact this

theorem RemoveDuplicates_owned {nC nA : Nat} {m m' : Mem F} {e e' : ItemH}
    (ho : Owned nC nA e.candles.arr m) (h : RemoveDuplicates m e = .ok (m', e')) :
    Owned nC nA e'.candles.arr m' ∧ Same nC nA m m' := by
  unfold RemoveDuplicates at h
  generalize hg : goFor 0 (e.candles.len : Int) (m, ([] : List Int), (0 : Int)) _ = g at h
  cases g with
  | error x => cases h
  | ok r =>
    obtain ⟨m1, lk, t⟩ := r
    simp only [ok_bind] at h
    cases hu : e.candles.upTo t with
    | error x => rw [hu] at h; cases h
    | ok s =>
      rw [hu] at h; cases h
      have := goFor_ok_inv (P := fun st : Mem F × List Int × Int =>
          Owned nC nA e.candles.arr st.1 ∧ Same nC nA m st.1)
        (by
          rintro i ⟨m0, l0, t0⟩ ⟨m2, l2, t2⟩ ⟨h1, h2⟩ hb
          simp only at hb
          cases hl : m0.load e.candles i with
          | error x => rw [hl] at hb; cases hb
          | ok p =>
            rw [hl] at hb
            simp only [ok_bind] at hb
            cases hd : m0.deref p with
            | error x => rw [hd] at hb; cases hb
            | ok c =>
              rw [hd] at hb
              simp only [ok_bind] at hb
              split at hb
              · cases hs : m0.store e.candles t0 p with
                | error x => rw [hs] at hb; cases hb
                | ok m3 =>
                  rw [hs] at hb; cases hb
                  obtain ⟨a, ha, hpa⟩ := Mem.load_mem hl
                  obtain ⟨h3, h4⟩ := Mem.store_owned h1
                    (fun x hx => h1.ptr_ge a ha x (hx ▸ hpa)) hs
                  exact ⟨h3, h2.trans h4⟩
              · cases hb; exact ⟨h1, h2⟩) ⟨ho, Same.refl _ _ _⟩ hg
      simp only [PSlice.upTo_arr hu]
      exact this

theorem Clear_owned {nC nA : Nat} {m m' : Mem F} {e e' : ItemH}
    (ho : Owned nC nA e.candles.arr m) (h : Clear m e = .ok (m', e')) :
    Owned nC nA e'.candles.arr m' ∧ Same nC nA m m' := by
  unfold Clear at h
  generalize hg : goFor 0 (e.candles.len : Int) m _ = g at h
  cases g with
  | error x => cases h
  | ok r =>
    cases h
    exact goFor_ok_inv (P := fun st : Mem F => Owned nC nA e.candles.arr st ∧ Same nC nA m st)
        (by
          rintro i m0 m2 ⟨h1, h2⟩ hb
          obtain ⟨h3, h4⟩ := Mem.store_owned h1 (by simp) hb
          exact ⟨h3, h2.trans h4⟩) ⟨ho, Same.refl _ _ _⟩ hg

/-- A write through an item: `*e.Candles[i] = c` (any change of fields). -/
def setCandle (m : Mem F) (e : ItemH) (i : Int) (c : Candle F) : Go (Mem F × ItemH) := do
  let p ← m.load e.candles i
  let _ ← m.deref p
  match p with
  | some a => pure ({ m with cells := m.cells.set a c }, e)
  | none => .error .nilDeref

/-- `e.Candles[i] = &c`. -/
def newCandle (m : Mem F) (e : ItemH) (i : Int) (c : Candle F) : Go (Mem F × ItemH) := do
  let (m, p) := m.alloc c
  let m ← m.store e.candles i p
  pure (m, e)

theorem setCandle_owned {nC nA : Nat} {m m' : Mem F} {e e' : ItemH} {i : Int} {c : Candle F}
    (ho : Owned nC nA e.candles.arr m) (h : setCandle m e i c = .ok (m', e')) :
    Owned nC nA e'.candles.arr m' ∧ Same nC nA m m' := by
  unfold setCandle at h
  cases hl : m.load e.candles i with
  | error x => rw [hl] at h; cases h
  | ok p =>
    rw [hl] at h
    simp only [ok_bind] at h
    cases hd : m.deref p with
    | error x => rw [hd] at h; cases h
    | ok c0 =>
      rw [hd] at h
      cases p with
      | none => cases h
      | some a =>
        cases h
        obtain ⟨ar, har, hpa⟩ := Mem.load_mem hl
        have hge := ho.ptr_ge ar har a hpa
        refine ⟨⟨ho.arr_ge, by simpa using ho.cells_ge, ho.ptr_ge⟩, fun j hj => ?_, fun _ _ => rfl⟩
        simp only [List.getElem?_set]
        rw [if_neg (by omega)]

theorem newCandle_owned {nC nA : Nat} {m m' : Mem F} {e e' : ItemH} {i : Int} {c : Candle F}
    (ho : Owned nC nA e.candles.arr m) (h : newCandle m e i c = .ok (m', e')) :
    Owned nC nA e'.candles.arr m' ∧ Same nC nA m m' := by
  obtain ⟨h1, h2, h3⟩ := Mem.alloc_owned ho c
  unfold newCandle at h
  cases hs : (m.alloc c).1.store e.candles i (m.alloc c).2 with
  | error x => simp only [hs] at h; cases h
  | ok m3 =>
    simp only [hs] at h; cases h
    obtain ⟨h4, h5⟩ := Mem.store_owned h1 h3 hs
    exact ⟨h4, h2.trans h5⟩

/-- The copy loop of `RemoveOutsideRangeCopy`. -/
theorem copy_loop (m : Mem F) (e : ItemH) (hv : m.Valid e) (m1 : Mem F) (cs : PSlice)
    (hmk : m.makeSlice e.candles.len = .ok (m1, cs)) :
    ∃ m2, goFor 0 e.candles.len m1 (fun i m => do
        let candle ← m.load e.candles i
        let copied ← m.deref candle
        let (m, p) := m.alloc copied
        m.store cs i p) = .ok m2 ∧
      cs = { arr := m.arrays.length, off := 0, len := e.candles.len } ∧
      m2.cells = m.cells ++ m.shown e ∧
      m2.arrays = m.arrays ++ [tab e.candles.len fun i => some (m.cells.length + i)] := by
  have hcs : cs = { arr := m.arrays.length, off := 0, len := e.candles.len } ∧
      m1 = { m with arrays := m.arrays ++ [List.replicate e.candles.len none] } := by
    unfold Mem.makeSlice at hmk
    rw [mk_nat] at hmk
    cases hmk
    simp
  obtain ⟨rfl, rfl⟩ := hcs
  obtain ⟨⟨a, ha, hl⟩, hp⟩ := id hv
  have harr : e.candles.arr < m.arrays.length := by
    by_contra h
    rw [List.getElem?_eq_none (by omega)] at ha; cases ha
  have hshown : (m.shown e).length = e.candles.len := by
    have : (m.shown e).length = (m.ptrs e.candles).length := by
      unfold Mem.shown
      refine List.filterMap_length_eq_length.mpr ?_
      intro p hp'
      obtain ⟨x, rfl, hx⟩ := hp p hp'
      simp [hx]
    rw [this, hv.length]
  have hcand : ∀ i < e.candles.len, ∃ x c, a[e.candles.off + i]? = some (some x) ∧
      m.cells[x]? = some c ∧ (m.shown e).take (i + 1) = (m.shown e).take i ++ [c] := by
    intro i hi
    obtain ⟨x, c, h1, h2⟩ := hv.at hi
    refine ⟨x, c, ?_, h2, ?_⟩
    · rw [← h1]
      simp only [Mem.ptrs, ha, Option.getD_some]
      rw [List.getElem?_take, if_pos hi, List.getElem?_drop]
    · have key : ∀ k ≤ e.candles.len, (m.shown e).take k
          = ((m.ptrs e.candles).take k).filterMap m.cand := by
        intro k hk
        have hsplit : m.shown e = ((m.ptrs e.candles).take k).filterMap m.cand
            ++ ((m.ptrs e.candles).drop k).filterMap m.cand := by
          rw [← List.filterMap_append, List.take_append_drop]; rfl
        have hlen : (((m.ptrs e.candles).take k).filterMap m.cand).length = k := by
          have : (((m.ptrs e.candles).take k).filterMap m.cand).length
              = ((m.ptrs e.candles).take k).length := by
            refine List.filterMap_length_eq_length.mpr ?_
            intro p hp'
            obtain ⟨x, rfl, hx⟩ := hp p (List.mem_of_mem_take hp')
            simp [Mem.cand, hx]
          rw [this, List.length_take, hv.length]; omega
        rw [hsplit, List.take_append_of_le_length (by omega), List.take_of_length_le (by omega)]
      rw [key (i + 1) (by omega), key i (by omega), List.take_add_one, h1, List.filterMap_append]
      simp [Mem.cand, h2]
  obtain ⟨m2, hrun, h1, h2⟩ := goFor_inv (n := e.candles.len)
    (s := ({ m with arrays := m.arrays ++ [List.replicate e.candles.len none] } : Mem F))
    (body := fun i m' => do
        let candle ← m'.load e.candles i
        let copied ← m'.deref candle
        let (m', p) := m'.alloc copied
        m'.store { arr := m.arrays.length, off := 0, len := e.candles.len } i p)
    (fun k m' => m'.cells = m.cells ++ (m.shown e).take k ∧
      m'.arrays = m.arrays ++ [filled e.candles.len k (fun i => some (m.cells.length + i)) none])
    ⟨by simp, by simp [filled_zero (f := fun i => some (m.cells.length + i))]⟩
    (by
      rintro k ⟨mc, ma⟩ hk ⟨rfl, rfl⟩
      obtain ⟨x, c, hx, hc, htk⟩ := hcand k hk
      have hxlt : x < m.cells.length := by
        by_contra h
        rw [List.getElem?_eq_none (by omega)] at hc; cases hc
      rw [Mem.load_eq (a := a) (by rw [List.getElem?_append_left harr]; exact ha) hk hx]
      simp only [ok_bind]
      have hd : ({ cells := m.cells ++ (m.shown e).take k, arrays := m.arrays ++
          [filled e.candles.len k (fun i => some (m.cells.length + i)) none] } : Mem F).deref (some x)
          = .ok c := by
        simp only [Mem.deref]
        rw [List.getElem?_append_left hxlt, hc]
      rw [hd]
      simp only [ok_bind, Mem.alloc]
      rw [Mem.store_eq (s := { arr := m.arrays.length, off := 0, len := e.candles.len })
        (a := filled e.candles.len k (fun i => some (m.cells.length + i)) none)
        (by simp) (by simp) (i := k) hk]
      refine ⟨_, rfl, ?_, ?_⟩
      · simp only [htk, List.append_assoc]
      · simp only [List.length_append, List.length_take, hshown, Nat.zero_add]
        rw [Nat.min_eq_left (by omega)]
        have hset := setAt_filled (n := e.candles.len) (k := k)
          (f := fun i => some (m.cells.length + i)) (z := none) (v := some (m.cells.length + k)) hk rfl
        rw [setAt_nat (by simpa using hk)] at hset
        rw [List.set_append_right _ _ (by simp), Nat.sub_self, List.set_cons_zero, Except.ok.inj hset])
  refine ⟨m2, hrun, rfl, ?_, ?_⟩
  · rw [h1, List.take_of_length_le (by omega)]
  · rw [h2, filled_full]

end Verif.Klines
