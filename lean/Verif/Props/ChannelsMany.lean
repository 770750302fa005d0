import Verif.Props.Channels
import Mathlib.Logic.Function.Basic

/-!
# `CheckEquals` of any number of pairs (C08)

The answer of `CheckEquals` for every list of pairs of finite streams, under every schedule.
-/

namespace Verif.Props

open Verif.Conc

variable {V S : Type}

/-! ## Many sources -/

/-- `Slice2Chan` of several slices, one after the other. -/
def feed : List (List V) → Setup V S (List Nat)
  | [] => pure []
  | xs :: rest => do
    let c ← Slice2Chan xs
    let cs ← feed rest
    return c :: cs

/-- The streams of the pairs in the order in which they are handed to `CheckEquals`. -/
def streams (ps : List (List V × List V)) : List (List V) := ps.flatMap fun p => [p.1, p.2]

/-- `CheckEquals` of any number of pairs of streams fed by `Slice2Chan`. -/
def checkPairs (eqv : V → V → Bool) (ps : List (List V × List V)) : Setup V S Unit := do
  let cs ← feed (streams ps)
  CheckEquals eqv cs

/-- What one comparison settles: nothing (`none`) when both streams have a value and the two are
equal, else the answer of the call. -/
def verdict (eqv : V → V → Bool) : Option V → Option V → Option CheckRes
  | some a, some b => if eqv a b then none else some .different
  | none, none => some .nil
  | _, _ => some .notEndedTheSame

theorem feed_eq (ss : List (List V)) (gs : List (G V S)) (cs : List (Chan V)) :
    (feed ss : Setup V S (List Nat)) (gs, cs) =
      (List.range' cs.length ss.length,
        (gs ++ tab ss.length fun i => G.source (ss[i]?.getD []) (cs.length + i),
          cs ++ tab ss.length fun _ => Chan.new 0)) := by
  induction ss generalizing gs cs with
  | nil => simp [feed, tab]; rfl
  | cons x ss ih =>
    have h1 : (feed (x :: ss) : Setup V S (List Nat)) (gs, cs) =
        (let r := (feed ss : Setup V S (List Nat)) (gs ++ [G.source x cs.length], cs ++ [Chan.new 0])
         (cs.length :: r.1, r.2)) := rfl
    rw [h1, ih]
    simp only [List.length_append, List.length_cons, List.length_nil, Nat.zero_add]
    refine Prod.ext ?_ (Prod.ext ?_ ?_)
    · simp only [List.range'_succ]
    · simp only [List.append_assoc]
      congr 1
      rw [tab, tab, List.range_succ_eq_map]
      simp [Function.comp_def, Nat.add_assoc, Nat.add_comm 1]
    · simp only [List.append_assoc]
      congr 1
      rw [tab, tab, List.range_succ_eq_map]
      simp [Function.comp_def]

theorem streams_length (ps : List (List V × List V)) : (streams ps).length = 2 * ps.length := by
  induction ps with
  | nil => rfl
  | cons p ps ih =>
    have : streams (p :: ps) = p.1 :: p.2 :: streams ps := rfl
    rw [this]; simp [ih]; omega

theorem streams_fst (ps : List (List V × List V)) (j : Nat) :
    (streams ps)[2 * j]? = ps[j]?.map Prod.fst := by
  induction ps generalizing j with
  | nil => simp [streams]
  | cons p ps ih =>
    have : streams (p :: ps) = p.1 :: p.2 :: streams ps := rfl
    rw [this]
    cases j with
    | zero => rfl
    | succ j => rw [show 2 * (j + 1) = 2 * j + 1 + 1 by omega]; simpa using ih j

theorem streams_snd (ps : List (List V × List V)) (j : Nat) :
    (streams ps)[2 * j + 1]? = ps[j]?.map Prod.snd := by
  induction ps generalizing j with
  | nil => simp [streams]
  | cons p ps ih =>
    have : streams (p :: ps) = p.1 :: p.2 :: streams ps := rfl
    rw [this]
    cases j with
    | zero => rfl
    | succ j => rw [show 2 * (j + 1) + 1 = 2 * j + 1 + 1 + 1 by omega]; simpa using ih j

/-- The pairs of channels of `k` pairs. -/
def chanPairs (k : Nat) : List (Nat × Nat) := tab k fun j => (2 * j, 2 * j + 1)

theorem pairUp_range (s k : Nat) : pairUp (List.range' s (2 * k)) = tab k fun j => (s + 2 * j, s + 2 * j + 1) := by
  induction k generalizing s with
  | zero => rfl
  | succ k ih =>
    rw [show 2 * (k + 1) = 2 * k + 1 + 1 by omega, List.range'_succ, List.range'_succ, pairUp, ih]
    rw [tab, tab, List.range_succ_eq_map]
    simp only [List.map_cons, List.map_map, Function.comp_def]
    refine congrArg₂ _ rfl (List.map_congr_left fun j _ => ?_)
    ext <;> simp <;> omega

/-- Sources that have closed their channel where they had nothing left, and one more goroutine. -/
def rig (m : Nat) (st : Nat → List V) (g : G V S) : Cfg (lib V S) :=
  cfg (tab m (fun c => settled (st c) c) ++ [g]) (tab m fun c => settledChan (st c))

theorem run_settle_all (m j : Nat) (hj : j ≤ m) (st : Nat → List V) (g : G V S) : ∃ n, Steps n
    (cfg (tab m (fun c => if c < m - j then settled (st c) c else .source (st c) c) ++ [g])
      (tab m fun c => if c < m - j then settledChan (st c) else .new 0))
    (rig m st g) := by
  induction j with
  | zero =>
    refine ⟨0, ?_⟩
    have h1 : (tab m fun c => if c < m - 0 then settled (S := S) (st c) c else .source (st c) c) =
        tab m fun c => settled (st c) c := tab_ext fun i hi => by rw [if_pos (by omega)]
    have h2 : (tab m fun c => if c < m - 0 then settledChan (st c) else .new 0) =
        tab m fun c => settledChan (st c) := tab_ext fun i hi => by rw [if_pos (by omega)]
    rw [h1, h2]
    exact .refl
  | succ j ih =>
    obtain ⟨n, hn⟩ := ih (by omega)
    set q := m - (j + 1) with hq
    rw [show m - j = q + 1 by omega] at hn
    by_cases he : (st q).isEmpty = true
    · refine ⟨n + 1, ?_⟩
      have hst : st q = [] := List.isEmpty_iff.mp he
      have hg : (tab m (fun c => if c < q then settled (st c) c else G.source (S := S) (st c) c) ++ [g])[q]? =
          some (.source [] q) := by
        rw [List.getElem?_append_left (by rw [tab_length]; omega), tab_getElem?_lt (by omega)]
        simp [hst]
      have hc : (tab m fun c => if c < q then settledChan (st c) else Chan.new 0)[q]? = some (.new 0) := by
        rw [tab_getElem?_lt (by omega)]; simp
      refine Steps.alone q q hg hc (.close rfl) ?_
      rw [List.set_append_left _ _ (by rw [tab_length]; omega), tab_set, tab_set]
      have e1 : (tab m fun i => if i = q then G.closing (V := V) (S := S) [] else
          if i < q then settled (st i) i else .source (st i) i) =
          tab m fun i => if i < q + 1 then settled (st i) i else .source (st i) i := by
        refine tab_ext fun i hi => ?_
        by_cases h1 : i = q
        · subst h1; simp [settled, hst]
        · simp only [h1, if_false]
          by_cases h2 : i < q
          · rw [if_pos h2, if_pos (by omega)]
          · rw [if_neg h2, if_neg (by omega)]
      have e2 : (tab m fun i => if i = q then { (Chan.new (V := V) 0) with closed := true } else
          if i < q then settledChan (st i) else .new 0) =
          tab m fun i => if i < q + 1 then settledChan (st i) else .new 0 := by
        refine tab_ext fun i hi => ?_
        by_cases h1 : i = q
        · subst h1; simp [settledChan, hst, done, Chan.new]
        · simp only [h1, if_false]
          by_cases h2 : i < q
          · rw [if_pos h2, if_pos (by omega)]
          · rw [if_neg h2, if_neg (by omega)]
      rw [e1, e2]
      exact hn
    · refine ⟨n, ?_⟩
      have e1 : (tab m fun i => if i < q then settled (S := S) (st i) i else .source (st i) i) =
          tab m fun i => if i < q + 1 then settled (st i) i else .source (st i) i := by
        refine tab_ext fun i hi => ?_
        by_cases h1 : i = q
        · subst h1; simp [settled, he]
        · by_cases h2 : i < q
          · rw [if_pos h2, if_pos (by omega)]
          · rw [if_neg h2, if_neg (by omega)]
      have e2 : (tab m fun i => if i < q then settledChan (st i) else .new 0) =
          tab m fun i => if i < q + 1 then settledChan (st i) else .new 0 := by
        refine tab_ext fun i hi => ?_
        by_cases h1 : i = q
        · subst h1; simp [settledChan, he]
        · by_cases h2 : i < q
          · rw [if_pos h2, if_pos (by omega)]
          · rw [if_neg h2, if_neg (by omega)]
      rw [e1, e2]
      exact hn

/-- The goroutine beside the sources receives once. -/
theorem run_recv (m c : Nat) (hc : c < m) (st : Nat → List V) (g : G V S) (k : Option V → G V S)
    (hg : act g = .recv c k) : ∃ n, Steps n (rig m st g)
    (rig m (Function.update st c (st c).tail) (k (st c).head?)) := by
  have hlast : ∀ f : Nat → G V S, (tab m f ++ [g])[m]? = some g := fun f => by
    rw [List.getElem?_append_right (by rw [tab_length]), tab_length]; simp
  cases hst : st c with
  | nil =>
    refine ⟨1, ?_⟩
    have hch : (tab m fun c => settledChan (st c))[c]? = some (done 0) := by
      rw [tab_getElem?_lt hc]; simp [settledChan, hst]
    refine Steps.alone m c (hlast _) hch (by rw [hg]; exact .recvClosed rfl rfl) ?_
    rw [set_same hch, List.set_append_right _ _ (by rw [tab_length]), tab_length, Nat.sub_self]
    have : Function.update st c ([] : List V).tail = st := by
      rw [List.tail_nil, ← hst]; exact Function.update_eq_self c st
    rw [this]
    exact .refl
  | cons v rest =>
    have hsrc : (tab m (fun c => settled (st c) c) ++ [g])[c]? = some (.source (v :: rest) c) := by
      rw [List.getElem?_append_left (by rw [tab_length]; exact hc), tab_getElem?_lt hc]
      simp [settled, hst]
    have hch : (tab m fun c => settledChan (st c))[c]? = some (.new 0) := by
      rw [tab_getElem?_lt hc]; simp [settledChan, hst]
    have hps : ((tab m (fun c => settled (st c) c) ++ [g]).set c (.source rest c)).set m (k (some v)) =
        tab m (fun i => if i = c then G.source rest c else settled (st i) i) ++ [k (some v)] := by
      rw [List.set_append_left _ _ (by rw [tab_length]; exact hc), tab_set,
        List.set_append_right _ _ (by rw [tab_length]), tab_length, Nat.sub_self]
      rfl
    by_cases he : rest = []
    · subst he
      refine ⟨2, ?_⟩
      refine Steps.hand c m hsrc (hlast _) rfl hg hch rfl rfl rfl ?_
      rw [hps]
      have hsrc' : (tab m (fun i => if i = c then G.source (S := S) [] c else settled (st i) i) ++ [k (some v)])[c]? =
          some (.source [] c) := by
        rw [List.getElem?_append_left (by rw [tab_length]; exact hc), tab_getElem?_lt hc]
        simp
      refine Steps.alone c c hsrc' hch (.close rfl) ?_
      rw [List.set_append_left _ _ (by rw [tab_length]; exact hc), tab_set, tab_set]
      have h1 : (tab m fun i => if i = c then G.closing (V := V) (S := S) [] else
          if i = c then .source [] c else settled (st i) i) =
          tab m fun i => settled (Function.update st c [] i) i := by
        refine tab_ext fun i hi => ?_
        by_cases h : i = c
        · subst h; simp [settled]
        · simp [h]
      have h2 : (tab m fun i => if i = c then { (Chan.new (V := V) 0) with closed := true } else settledChan (st i)) =
          tab m fun i => settledChan (Function.update st c [] i) := by
        refine tab_ext fun i hi => ?_
        by_cases h : i = c
        · subst h; simp [settledChan, done, Chan.new]
        · simp [h]
      rw [h1, h2]
      exact .refl
    · refine ⟨1, ?_⟩
      refine Steps.hand c m hsrc (hlast _) rfl hg hch rfl rfl rfl ?_
      rw [hps]
      have h1 : (tab m fun i => if i = c then G.source (S := S) rest c else settled (st i) i) =
          tab m fun i => settled (Function.update st c rest i) i := by
        refine tab_ext fun i hi => ?_
        by_cases h : i = c
        · subst h; simp [settled, he]
        · simp [h]
      have h2 : (tab m fun i => settledChan (st i)) =
          tab m fun i => settledChan (Function.update st c rest i) := by
        refine tab_ext fun i hi => ?_
        by_cases h : i = c
        · subst h; simp [settledChan, hst, he]
        · simp [h]
      rw [h1, h2]
      exact .refl

/-- What is left of the streams in round `i` before pair `j`. -/
def left (st : Nat → List V) (i j c : Nat) : List V := (st c).drop (if c / 2 < j then i + 1 else i)

theorem chanPairs_drop (k j : Nat) (hj : j < k) :
    (chanPairs k).drop j = (2 * j, 2 * j + 1) :: (chanPairs k).drop (j + 1) := by
  rw [List.drop_eq_getElem_cons (by rw [chanPairs, tab_length]; exact hj)]
  congr 1
  simp [chanPairs, tab_getElem]

theorem run_pair (eqv : V → V → Bool) (k i j : Nat) (hj : j < k) (st : Nat → List V) : ∃ n, Steps n
    (rig (S := S) (2 * k) (left st i j) (.check eqv (chanPairs k) ((chanPairs k).drop j)))
    (rig (2 * k) (left st i (j + 1))
      (checkPair eqv (chanPairs k) ((chanPairs k).drop (j + 1)) (st (2 * j))[i]? (st (2 * j + 1))[i]?)) := by
  rw [chanPairs_drop k j hj]
  obtain ⟨n1, h1⟩ := run_recv (2 * k) (2 * j) (by omega) (left st i j)
    (G.check (S := S) eqv (chanPairs k) ((2 * j, 2 * j + 1) :: (chanPairs k).drop (j + 1))) _ rfl
  obtain ⟨n2, h2⟩ := run_recv (2 * k) (2 * j + 1) (by omega)
    (Function.update (left st i j) (2 * j) (left st i j (2 * j)).tail)
    (G.checkB (S := S) eqv (chanPairs k) ((chanPairs k).drop (j + 1)) (2 * j + 1) (left st i j (2 * j)).head?) _ rfl
  refine ⟨n1 + n2, h1.trans ?_⟩
  convert h2 using 2
  · funext c
    by_cases hc : c = 2 * j + 1
    · subst hc
      rw [Function.update_self, Function.update_of_ne (by omega)]
      simp only [left]
      rw [if_pos (by omega), if_neg (by omega), List.tail_drop]
    · rw [Function.update_of_ne hc]
      by_cases hc' : c = 2 * j
      · subst hc'
        rw [Function.update_self]
        simp only [left]
        rw [if_pos (by omega), if_neg (by omega), List.tail_drop]
      · rw [Function.update_of_ne hc']
        simp only [left]
        congr 1
        by_cases h : c / 2 < j
        · rw [if_pos h, if_pos (by omega)]
        · rw [if_neg h, if_neg (by omega)]
  · rw [Function.update_of_ne (by omega)]
    simp only [left]
    rw [if_neg (by omega), if_neg (by omega), List.head?_drop, List.head?_drop]

theorem checkPair_verdict (eqv : V → V → Bool) (pairs todo : List (Nat × Nat)) (a b : Option V) :
    checkPair (S := S) eqv pairs todo a b = match verdict eqv a b with
      | none => .check eqv pairs todo
      | some r => .checked r := by
  rcases a with _ | a <;> rcases b with _ | b <;> simp only [checkPair, verdict]
  split <;> rfl

/-- The comparison at place `i` of pair `j`. -/
def comparison (eqv : V → V → Bool) (st : Nat → List V) (i j : Nat) : Option CheckRes :=
  verdict eqv (st (2 * j))[i]? (st (2 * j + 1))[i]?

/-- One round, from pair `j` on: it answers at the first pair that settles something, or goes through. -/
theorem run_round (eqv : V → V → Bool) (k i j : Nat) (hj : j ≤ k) (st : Nat → List V) :
    (∃ n r j' st', j ≤ j' ∧ j' < k ∧ comparison eqv st i j' = some r ∧
      (∀ l, j ≤ l → l < j' → comparison eqv st i l = none) ∧
      Steps n (rig (S := S) (2 * k) (left st i j) (.check eqv (chanPairs k) ((chanPairs k).drop j)))
        (rig (2 * k) st' (.checked r))) ∨
    (∃ n, (∀ l, j ≤ l → l < k → comparison eqv st i l = none) ∧
      Steps n (rig (S := S) (2 * k) (left st i j) (.check eqv (chanPairs k) ((chanPairs k).drop j)))
        (rig (2 * k) (left st i k) (.check eqv (chanPairs k) []))) := by
  obtain ⟨d, rfl⟩ := Nat.exists_eq_add_of_le hj
  induction d generalizing j with
  | zero =>
    refine .inr ⟨0, fun l h1 h2 => absurd h2 (by omega), ?_⟩
    have : (chanPairs (j + 0)).drop j = [] := List.drop_eq_nil_iff.mpr (by rw [chanPairs, tab_length]; omega)
    rw [this]
    exact .refl
  | succ d ih =>
    obtain ⟨n, hn⟩ := run_pair (S := S) eqv (j + (d + 1)) i j (by omega) st
    rw [checkPair_verdict] at hn
    cases hv : comparison eqv st i j with
    | some r =>
      refine .inl ⟨n, r, j, left st i (j + 1), le_rfl, by omega, hv, fun l h1 h2 => absurd h2 (by omega), ?_⟩
      rw [comparison] at hv
      rw [hv] at hn
      exact hn
    | none =>
      rw [comparison] at hv
      rw [hv] at hn
      have key := ih (j + 1) (by omega)
      rw [show j + 1 + d = j + (d + 1) by omega] at key
      rcases key with ⟨n', r, j', st', h1, h2, h3, h4, h5⟩ | ⟨n', h4, h5⟩
      · refine .inl ⟨n + n', r, j', st', by omega, h2, h3, fun l hl hl' => ?_, hn.trans h5⟩
        by_cases h : l = j
        · subst h; exact hv
        · exact h4 l (by omega) hl'
      · refine .inr ⟨n + n', fun l hl hl' => ?_, hn.trans h5⟩
        by_cases h : l = j
        · subst h; exact hv
        · exact h4 l (by omega) hl'

theorem rig_congr (m : Nat) {st st' : Nat → List V} (g : G V S) (h : ∀ c < m, st c = st' c) :
    rig m st g = rig m st' g := by
  have h1 : tab m (fun c => settled (S := S) (st c) c) = tab m fun c => settled (st' c) c :=
    tab_ext fun i hi => by rw [h i hi]
  have h2 : tab m (fun c => settledChan (st c)) = tab m fun c => settledChan (st' c) :=
    tab_ext fun i hi => by rw [h i hi]
  rw [rig, rig, h1, h2]

theorem run_rounds (eqv : V → V → Bool) (k : Nat) (hk : 0 < k) (st : Nat → List V) (f i : Nat)
    (hf : (st 0).length ≤ i + f) : ∃ n r i' j' st', i ≤ i' ∧ j' < k ∧ comparison eqv st i' j' = some r ∧
      (∀ a l, i ≤ a → l < k → (a < i' ∨ a = i' ∧ l < j') → comparison eqv st a l = none) ∧
      Steps n (rig (S := S) (2 * k) (left st i 0) (.check eqv (chanPairs k) (chanPairs k)))
        (rig (2 * k) st' (.checked r)) := by
  have stop : ∀ {i}, (∃ n r j' st', 0 ≤ j' ∧ j' < k ∧ comparison eqv st i j' = some r ∧
      (∀ l, 0 ≤ l → l < j' → comparison eqv st i l = none) ∧
      Steps n (rig (S := S) (2 * k) (left st i 0) (.check eqv (chanPairs k) ((chanPairs k).drop 0)))
        (rig (2 * k) st' (.checked r))) → _ := fun {i} ⟨n, r, j', st', h1, h2, h3, h4, h5⟩ =>
    (⟨n, r, i, j', st', le_rfl, h2, h3, fun a l ha hl h => by
        rcases h with h | ⟨h, h'⟩
        · omega
        · subst h; exact h4 l (Nat.zero_le _) h', h5⟩ : ∃ n r i' j' st', i ≤ i' ∧ j' < k ∧
      comparison eqv st i' j' = some r ∧
      (∀ a l, i ≤ a → l < k → (a < i' ∨ a = i' ∧ l < j') → comparison eqv st a l = none) ∧
      Steps n (rig (S := S) (2 * k) (left st i 0) (.check eqv (chanPairs k) (chanPairs k)))
        (rig (2 * k) st' (.checked r)))
  induction f generalizing i with
  | zero =>
    rcases run_round (S := S) eqv k i 0 (Nat.zero_le _) st with h | ⟨n, h4, _⟩
    · exact stop h
    · have := h4 0 le_rfl hk
      rw [comparison, Nat.mul_zero, List.getElem?_eq_none (by omega)] at this
      cases h0 : (st (0 + 1))[i]? <;> simp [verdict, h0] at this
  | succ f ih =>
    rcases run_round (S := S) eqv k i 0 (Nat.zero_le _) st with h | ⟨n, h4, h5⟩
    · exact stop h
    · obtain ⟨n', r, i', j', st', h1, h2, h3, h6, h7⟩ := ih (i + 1) (by omega)
      refine ⟨n + (n' + 1), r, i', j', st', by omega, h2, h3, fun a l ha hl hlt => ?_, h5.trans ?_⟩
      · by_cases h : a = i
        · subst h; exact h4 l (Nat.zero_le _) hl
        · exact h6 a l (by omega) hl hlt
      · have e : rig (S := S) (2 * k) (left st i k) (.check eqv (chanPairs k) (chanPairs k)) =
            rig (2 * k) (left st (i + 1) 0) (.check eqv (chanPairs k) (chanPairs k)) :=
          rig_congr _ _ fun c hc => by
            simp only [left]
            rw [if_pos (by omega), if_neg (by omega)]
        rw [← e] at h7
        refine Steps.silent (2 * k) (g := .check eqv (chanPairs k) [])
          (g' := .check eqv (chanPairs k) (chanPairs k)) ?_ rfl ?_
        · rw [List.getElem?_append_right (by rw [tab_length]), tab_length]; simp
        · rw [List.set_append_right _ _ (by rw [tab_length]), tab_length, Nat.sub_self]
          exact h7

theorem blocked_rig (m : Nat) (st : Nat → List V) (r : CheckRes) :
    ∀ g ∈ (tab m (fun c => settled (S := S) (st c) c) ++ [.checked r]),
      Blocked (tab m (fun c => settled (S := S) (st c) c) ++ [.checked r])
        (tab m fun c => settledChan (st c)) g := by
  intro g hg
  rw [List.mem_append, List.mem_singleton] at hg
  rcases hg with hg | rfl
  · obtain ⟨c, hc, rfl⟩ := List.mem_map.mp hg
    rw [List.mem_range] at hc
    cases hst : st c with
    | nil => exact .inl rfl
    | cons y ys =>
      refine .inr (.inr ⟨c, y, .source ys c, .new 0, rfl, ?_, rfl, rfl⟩)
      rw [tab_getElem?_lt hc]; simp [settledChan, hst]
  · exact .inl rfl

theorem checkPairs_start (eqv : V → V → Bool) (ps : List (List V × List V)) :
    start (S := S) (checkPairs eqv ps) =
      cfg (tab (2 * ps.length) (fun c => G.source ((streams ps)[c]?.getD []) c) ++
          [.check eqv (chanPairs ps.length) (chanPairs ps.length)])
        (tab (2 * ps.length) fun _ => .new 0) := by
  have h := feed_eq (S := S) (streams ps) [] []
  have h1 : (checkPairs eqv ps : Setup V S Unit) ([], []) =
      (let r := (feed (streams ps) : Setup V S (List Nat)) ([], [])
       (CheckEquals eqv r.1 : Setup V S Unit) r.2) := rfl
  have h2 : pairUp (List.range' 0 (2 * ps.length)) = chanPairs ps.length := by
    rw [pairUp_range]; simp [chanPairs]
  have h3 : (checkPairs eqv ps : Setup V S Unit) ([], []) = ((),
      (tab (2 * ps.length) (fun c => G.source ((streams ps)[c]?.getD []) c) ++
          [.check eqv (chanPairs ps.length) (chanPairs ps.length)],
        tab (2 * ps.length) fun _ => Chan.new 0)) := by
    rw [h1, h]
    simp only [List.length_nil, streams_length, List.nil_append, Nat.zero_add]
    rw [CheckEquals, if_neg (by rw [List.length_range']; omega), h2]
    rfl
  show cfg ((checkPairs eqv ps : Setup V S Unit) ([], [])).2.1 ((checkPairs eqv ps : Setup V S Unit) ([], [])).2.2 = _
  rw [h3]

/-- What `CheckEquals` finds at place `i` of pair `j`. -/
def findsAt (eqv : V → V → Bool) (ps : List (List V × List V)) (i j : Nat) : Option CheckRes :=
  verdict eqv ((ps[j]?.map Prod.fst).getD [])[i]? ((ps[j]?.map Prod.snd).getD [])[i]?

/-- **C08 (any number of pairs)**: `CheckEquals` of one or more pairs of finite streams returns under
every schedule, and its answer is settled by the first comparison that settles anything when the
places are gone through row by row: place 0 of every pair, then place 1 of every pair, and so on. In
particular two streams that end at the same place end the call with nil, whatever the other pairs
hold from there on. -/
theorem C08_several_pairs (eqv : V → V → Bool) (ps : List (List V × List V)) (h : ps ≠ []) :
    ∃ i j r, j < ps.length ∧ findsAt eqv ps i j = some r ∧
      (∀ a l, l < ps.length → (a < i ∨ a = i ∧ l < j) → findsAt eqv ps a l = none) ∧
      Returns (start (S := S) (checkPairs eqv ps)) r := by
  set st : Nat → List V := fun c => (streams ps)[c]?.getD [] with hst
  obtain ⟨n1, h1⟩ := run_settle_all (2 * ps.length) (2 * ps.length) le_rfl st
    (G.check (S := S) eqv (chanPairs ps.length) (chanPairs ps.length))
  rw [Nat.sub_self] at h1
  obtain ⟨n2, r, i, j, st', _, hj, hr, hno, h2⟩ := run_rounds (S := S) eqv ps.length
    (List.length_pos_iff.mpr h) st (st 0).length 0 (by omega)
  have hc : ∀ a l, comparison eqv st a l = findsAt eqv ps a l := fun a l => by
    simp only [comparison, findsAt, hst, streams_fst, streams_snd]
  refine ⟨i, j, r, hj, by rw [← hc]; exact hr,
    fun a l hl hlt => by rw [← hc]; exact hno a l (Nat.zero_le _) hl hlt, ?_⟩
  have e : rig (S := S) (2 * ps.length) (left st 0 0) (.check eqv (chanPairs ps.length) (chanPairs ps.length)) =
      rig (2 * ps.length) st (.check eqv (chanPairs ps.length) (chanPairs ps.length)) :=
    rig_congr _ _ fun c hc => by simp [left]
  rw [e] at h2
  rw [checkPairs_start]
  simp only [Nat.not_lt_zero, if_false] at h1
  refine ⟨_, alwaysEndsIn (singleUse_of ?_) (h1.trans h2) (terminal_of_blocked (blocked_rig _ _ _))
    (not_panics_of_blocked (blocked_rig _ _ _)), ?_⟩
  · rw [List.pairwise_append]
    refine ⟨?_, by simp, ?_⟩
    · rw [tab, List.pairwise_map]
      refine List.nodup_range.imp ?_
      intro a b hab
      simp [wr, rd, hab]
    · intro a ha b hb
      obtain ⟨c, _, rfl⟩ := List.mem_map.mp ha
      rw [List.mem_singleton] at hb
      subst hb
      simp [wr, rd]
  · show (_ ++ [G.checked r]).getLast? = _
    rw [List.getLast?_append]; rfl

/-- An answer of `CheckEquals` is unique: no two schedules give different ones. -/
theorem returns_unique {s : Cfg (lib V S)} {r r' : CheckRes} (h : Returns s r) (h' : Returns s r') : r = r' := by
  obtain ⟨t, ht, hl⟩ := h
  obtain ⟨t', ht', hl'⟩ := h'
  obtain ⟨k, hk⟩ := ht.live 0 s .refl
  obtain rfl := ht'.unique k t hk ht.ends
  rw [hl] at hl'
  cases hl'
  rfl

/-- **C08 (equal pairs)**: when the streams of every pair are equal, the answer is nil. -/
theorem C08_equal_pairs (eqv : V → V → Bool) (ps : List (List V × List V)) (h : ps ≠ [])
    (heq : ∀ p ∈ ps, List.Forall₂ (fun a b => eqv a b = true) p.1 p.2) :
    Returns (start (S := S) (checkPairs eqv ps)) .nil := by
  obtain ⟨i, j, r, hj, hr, _, hret⟩ := C08_several_pairs (S := S) eqv ps h
  have hp := heq ps[j] (List.getElem_mem hj)
  have hl := hp.length_eq
  simp only [findsAt, List.getElem?_eq_getElem hj, Option.map_some, Option.getD_some] at hr
  by_cases hi : i < ps[j].1.length
  · have he := (List.forall₂_iff_get.mp hp).2 i hi (by omega)
    rw [List.getElem?_eq_getElem hi, List.getElem?_eq_getElem (by omega)] at hr
    simp only [List.get_eq_getElem] at he
    simp [verdict, he] at hr
  · rw [List.getElem?_eq_none (by omega), List.getElem?_eq_none (by omega)] at hr
    cases hr
    exact hret

/-- **C08 (streams of one length)**: when all streams have the same length, the answer is nil exactly
when the streams of every pair are equal. -/
theorem C08_same_length (eqv : V → V → Bool) (ps : List (List V × List V)) (h : ps ≠ []) (n : Nat)
    (hn : ∀ p ∈ ps, p.1.length = n ∧ p.2.length = n) :
    ∃ r, Returns (start (S := S) (checkPairs eqv ps)) r ∧
      (r = .nil ↔ ∀ p ∈ ps, List.Forall₂ (fun a b => eqv a b = true) p.1 p.2) := by
  obtain ⟨i, j, r, hj, hr, hno, hret⟩ := C08_several_pairs (S := S) eqv ps h
  refine ⟨r, hret, fun hnil p hp => ?_, fun heq => returns_unique hret (C08_equal_pairs eqv ps h heq)⟩
  subst hnil
  obtain ⟨l, hl, rfl⟩ := List.getElem_of_mem hp
  refine List.forall₂_iff_get.mpr ⟨by rw [(hn _ hp).1, (hn _ hp).2], fun a ha hb => ?_⟩
  have hi : n ≤ i := by
    by_contra hlt
    have hj' := hn ps[j] (List.getElem_mem hj)
    simp only [findsAt, List.getElem?_eq_getElem hj, Option.map_some, Option.getD_some] at hr
    rw [List.getElem?_eq_getElem (by omega), List.getElem?_eq_getElem (by omega)] at hr
    simp only [verdict] at hr
    split at hr <;> cases hr
  have hf := hno a l hl (.inl (by have := (hn _ hp).1; omega))
  simp only [findsAt, List.getElem?_eq_getElem hl, Option.map_some, Option.getD_some] at hf
  rw [List.getElem?_eq_getElem ha, List.getElem?_eq_getElem hb] at hf
  simp only [verdict] at hf
  by_contra hne
  simp only [List.get_eq_getElem] at hne
  simp [hne] at hf

/-- **C08 (a nil answer)**: it vouches for every pair up to the place where the first pair to end ends:
some pair has two streams of one length `n`, and before place `n` all pairs agree. -/
theorem C08_nil_means (eqv : V → V → Bool) (ps : List (List V × List V)) (h : ps ≠ [])
    (hr : Returns (start (S := S) (checkPairs eqv ps)) .nil) :
    ∃ q ∈ ps, q.1.length = q.2.length ∧ ∀ p ∈ ps, q.1.length ≤ p.1.length ∧ q.1.length ≤ p.2.length ∧
      List.Forall₂ (fun a b => eqv a b = true) (p.1.take q.1.length) (p.2.take q.1.length) := by
  obtain ⟨i, j, r, hj, hf, hno, hret⟩ := C08_several_pairs (S := S) eqv ps h
  obtain rfl := returns_unique hret hr
  have some_of : ∀ a l (hl : l < ps.length), (a < i ∨ a = i ∧ l < j) →
      ∃ (h1 : a < ps[l].1.length) (h2 : a < ps[l].2.length), eqv ps[l].1[a] ps[l].2[a] = true := by
    intro a l hl hlt
    have := hno a l hl hlt
    simp only [findsAt, List.getElem?_eq_getElem hl, Option.map_some, Option.getD_some] at this
    by_cases h1 : a < ps[l].1.length
    · rw [List.getElem?_eq_getElem h1] at this
      by_cases h2 : a < ps[l].2.length
      · rw [List.getElem?_eq_getElem h2] at this
        refine ⟨h1, h2, ?_⟩
        by_contra hne
        simp [verdict, hne] at this
      · rw [List.getElem?_eq_none (by omega)] at this
        simp [verdict] at this
    · rw [List.getElem?_eq_none (by omega)] at this
      cases h0 : ps[l].2[a]? <;> simp [verdict, h0] at this
  have long : ∀ l (hl : l < ps.length), i ≤ ps[l].1.length ∧ i ≤ ps[l].2.length := by
    intro l hl
    cases i with
    | zero => exact ⟨Nat.zero_le _, Nat.zero_le _⟩
    | succ a =>
      obtain ⟨h1, h2, _⟩ := some_of a l hl (.inl (Nat.lt_succ_self a))
      exact ⟨h1, h2⟩
  simp only [findsAt, List.getElem?_eq_getElem hj, Option.map_some, Option.getD_some] at hf
  have hlen : ps[j].1.length = i ∧ ps[j].2.length = i := by
    obtain ⟨l1, l2⟩ := long j hj
    by_cases h1 : i < ps[j].1.length
    · rw [List.getElem?_eq_getElem h1] at hf
      cases h0 : ps[j].2[i]? with
      | none => simp [verdict, h0] at hf
      | some b =>
        rw [h0] at hf
        simp only [verdict] at hf
        split at hf <;> cases hf
    · by_cases h2 : i < ps[j].2.length
      · rw [List.getElem?_eq_none (by omega), List.getElem?_eq_getElem h2] at hf
        simp [verdict] at hf
      · exact ⟨by omega, by omega⟩
  refine ⟨ps[j], List.getElem_mem hj, by omega, fun p hp => ?_⟩
  obtain ⟨l, hl, rfl⟩ := List.getElem_of_mem hp
  rw [hlen.1]
  obtain ⟨l1, l2⟩ := long l hl
  refine ⟨l1, l2, List.forall₂_iff_get.mpr ⟨by simp [l1, l2], fun a ha hb => ?_⟩⟩
  obtain ⟨h1, h2, h3⟩ := some_of a l hl (.inl (by simp at ha; omega))
  simpa using h3

/-- Two pairs; the second differs at its second place, after the first pair has ended: the answer is
nil. Had it differed at its first place, it would not be. -/
example : findsAt (fun a b => decide (a = b)) [([1], [1]), ([2, 3], [2, 4])] 0 0 = none ∧
    findsAt (fun a b => decide (a = b)) [([1], [1]), ([2, 3], [2, 4])] 0 1 = none ∧
    findsAt (fun a b => decide (a = b)) [([1], [1]), ([2, 3], [2, 4])] 1 0 = some .nil ∧
    findsAt (fun a b => decide (a = b)) [([1], [1]), ([3], [4])] 0 1 = some .different := by decide

example : Returns (start (S := Unit) (checkPairs (fun a b => decide (a = b)) [([1, 2], [1, 2]), ([3], [3])])) .nil :=
  C08_equal_pairs _ _ (by simp) fun p hp => by
    simp only [List.mem_cons, List.not_mem_nil, or_false] at hp
    rcases hp with rfl | rfl <;> simp

end Verif.Props
