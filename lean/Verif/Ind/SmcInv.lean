import Verif.Ind.Smc
import Verif.Go.Loop

/-!
# The parts of `SmartMoneyConcepts.Calculation`, one by one
-/

set_option linter.unusedSectionVars false

namespace Verif.Ind.Smc
open Verif Verif.Klines Verif.Ta Verif.Ind GoFloat

variable {F : Type} [GoFloat F] {L : Type} [LinearOrder L]

/-- What is needed of the arithmetic: 0 and 99999999 are numbers, and `math.Max` / `math.Min` of two numbers is the
larger / smaller of the two. -/
structure Laws (o : OrdKey F L) : Prop where
  zero : o.good (fl 0 : F)
  big : o.good (lit 99999999 : F)
  max_or : ∀ {a b : F}, o.good a → o.good b → GoFloat.max a b = a ∨ GoFloat.max a b = b
  max_left : ∀ {a b : F}, o.good a → o.good b → o.key a ≤ o.key (GoFloat.max a b)
  max_right : ∀ {a b : F}, o.good a → o.good b → o.key b ≤ o.key (GoFloat.max a b)
  min_or : ∀ {a b : F}, o.good a → o.good b → GoFloat.min a b = a ∨ GoFloat.min a b = b
  min_left : ∀ {a b : F}, o.good a → o.good b → o.key (GoFloat.min a b) ≤ o.key a
  min_right : ∀ {a b : F}, o.good a → o.good b → o.key (GoFloat.min a b) ≤ o.key b

section xf
variable {K : Type} [Field K] [LinearOrder K] [IsStrictOrderedRing K]

theorem xfLaws : Laws (XF.ordKey (K := K)) where
  zero := by rw [XF.fl_fin]; intro h; cases h
  big := by rw [XF.lit_fin]; intro h; cases h
  max_or := by
    intro a b ha hb
    show XF.max a b = a ∨ XF.max a b = b
    cases a <;> cases b <;> simp_all [XF.ordKey, XF.max]
    grind
  max_left := by
    intro a b ha hb
    show XF.toExt a ≤ XF.toExt (XF.max a b)
    cases a <;> cases b <;> simp_all [XF.ordKey, XF.max, XF.toExt]
  max_right := by
    intro a b ha hb
    show XF.toExt b ≤ XF.toExt (XF.max a b)
    cases a <;> cases b <;> simp_all [XF.ordKey, XF.max, XF.toExt]
  min_or := by
    intro a b ha hb
    show XF.min a b = a ∨ XF.min a b = b
    cases a <;> cases b <;> simp_all [XF.ordKey, XF.min]
    grind
  min_left := by
    intro a b ha hb
    show XF.toExt (XF.min a b) ≤ XF.toExt a
    cases a <;> cases b <;> simp_all [XF.ordKey, XF.min, XF.toExt]
  min_right := by
    intro a b ha hb
    show XF.toExt (XF.min a b) ≤ XF.toExt b
    cases a <;> cases b <;> simp_all [XF.ordKey, XF.min, XF.toExt]

end xf

variable (o : OrdKey F L)

theorem eq_self {a : F} (h : o.good a) : (a ==. a) = true := (o.eq_iff h h).mpr rfl

/-! ## Swings -/

theorem Highest_key {i : Nat} {x : Nat → F} (hg : ∀ j, j ≤ i → o.good (x j)) (len : Int) :
    ∃ v, Highest (tab (i + 1) x) len = .ok v ∧ o.good v ∧ o.key (x i) ≤ o.key v ∧
      ∀ d : Nat, (d : Int) < len → d ≤ i → o.key (x (i - d)) ≤ o.key v := by
  have e1 : ((i + 1 : Nat) : Int) - 1 = (i : Int) := by omega
  unfold Highest
  simp only [tab_length, e1, idx_tab (show i < i + 1 by omega), ok_bind]
  by_cases hn : len ≤ 0
  · rw [goFor_empty (by omega)]
    exact ⟨_, rfl, hg i le_rfl, le_rfl, fun d hd => absurd hd (by omega)⟩
  · obtain ⟨m, rfl⟩ : ∃ m : Nat, len = m := ⟨len.toNat, by omega⟩
    have e2 : min (m : Int) ((i + 1 : Nat) : Int) = ((min m (i + 1) : Nat) : Int) := by omega
    rw [e2]
    obtain ⟨v, hv, h1, h2, h3⟩ := goFor_inv (n := min m (i + 1)) (s := x i)
      (body := fun (d : Int) (result : F) => do
        let v ← idx (tab (i + 1) x) ((i : Int) - d)
        if v >. result then pure v else pure result)
      (fun k u => o.good u ∧ o.key (x i) ≤ o.key u ∧ ∀ d : Nat, d < k → o.key (x (i - d)) ≤ o.key u)
      ⟨hg i le_rfl, le_rfl, fun d hd => absurd hd (by omega)⟩
      (by
        rintro k u hk ⟨h1, h2, h3⟩
        have e3 : (i : Int) - (k : Int) = ((i - k : Nat) : Int) := by omega
        simp only [e3, idx_tab (show i - k < i + 1 by omega), ok_bind, pure_eq_ok, GoFloat.gt]
        have hgk := hg (i - k) (by omega)
        by_cases hlt : (u <. x (i - k)) = true
        · have hl := (o.lt_iff h1 hgk).mp hlt
          refine ⟨x (i - k), by rw [if_pos hlt], hgk, le_trans h2 hl.le, fun d hd => ?_⟩
          rcases Nat.lt_succ_iff_lt_or_eq.mp hd with h | h
          · exact le_trans (h3 d h) hl.le
          · rw [h]
        · refine ⟨u, by rw [if_neg hlt], h1, h2, fun d hd => ?_⟩
          rcases Nat.lt_succ_iff_lt_or_eq.mp hd with h | h
          · exact h3 d h
          · rw [h]; exact not_lt.mp fun h' => hlt ((o.lt_iff h1 hgk).mpr h'))
    exact ⟨v, hv, h1, h2, fun d hd hi => h3 d (by omega)⟩

theorem Lowest_key {i : Nat} {x : Nat → F} (hg : ∀ j, j ≤ i → o.good (x j)) (len : Int) :
    ∃ v, Lowest (tab (i + 1) x) len = .ok v ∧ o.good v ∧ o.key v ≤ o.key (x i) ∧
      ∀ d : Nat, (d : Int) < len → d ≤ i → o.key v ≤ o.key (x (i - d)) := by
  have e1 : ((i + 1 : Nat) : Int) - 1 = (i : Int) := by omega
  unfold Lowest
  simp only [tab_length, e1, idx_tab (show i < i + 1 by omega), ok_bind]
  by_cases hn : len ≤ 0
  · rw [goFor_empty (by omega)]
    exact ⟨_, rfl, hg i le_rfl, le_rfl, fun d hd => absurd hd (by omega)⟩
  · obtain ⟨m, rfl⟩ : ∃ m : Nat, len = m := ⟨len.toNat, by omega⟩
    have e2 : min (m : Int) ((i + 1 : Nat) : Int) = ((min m (i + 1) : Nat) : Int) := by omega
    rw [e2]
    obtain ⟨v, hv, h1, h2, h3⟩ := goFor_inv (n := min m (i + 1)) (s := x i)
      (body := fun (d : Int) (result : F) => do
        let v ← idx (tab (i + 1) x) ((i : Int) - d)
        if v <. result then pure v else pure result)
      (fun k u => o.good u ∧ o.key u ≤ o.key (x i) ∧ ∀ d : Nat, d < k → o.key u ≤ o.key (x (i - d)))
      ⟨hg i le_rfl, le_rfl, fun d hd => absurd hd (by omega)⟩
      (by
        rintro k u hk ⟨h1, h2, h3⟩
        have e3 : (i : Int) - (k : Int) = ((i - k : Nat) : Int) := by omega
        simp only [e3, idx_tab (show i - k < i + 1 by omega), ok_bind, pure_eq_ok]
        have hgk := hg (i - k) (by omega)
        by_cases hlt : (x (i - k) <. u) = true
        · have hl := (o.lt_iff hgk h1).mp hlt
          refine ⟨x (i - k), by rw [if_pos hlt], hgk, le_trans hl.le h2, fun d hd => ?_⟩
          rcases Nat.lt_succ_iff_lt_or_eq.mp hd with h | h
          · exact le_trans hl.le (h3 d h)
          · rw [h]
        · refine ⟨u, by rw [if_neg hlt], h1, h2, fun d hd => ?_⟩
          rcases Nat.lt_succ_iff_lt_or_eq.mp hd with h | h
          · exact h3 d h
          · rw [h]; exact not_lt.mp fun h' => hlt ((o.lt_iff hgk h1).mpr h'))
    exact ⟨v, hv, h1, h2, fun d hd hi => h3 d (by omega)⟩

/-- The high of candle `m` is above the highs of the `len` candles after it. -/
def PeakAt (f : Nat → F) (len m : Nat) : Prop := ∀ d, 1 ≤ d → d ≤ len → o.key (f (m + d)) < o.key (f m)

/-- The low of candle `m` is below the lows of the `len` candles after it. -/
def DipAt (f : Nat → F) (len m : Nat) : Prop := ∀ d, 1 ≤ d → d ≤ len → o.key (f m) < o.key (f (m + d))

/-- The outcome of `swings` at candle `i`: which of the two swing events happens depends on the candle `len` before
and on the last event. -/
theorem swings_spec {i : Nat} {h l : Nat → F} (hh : ∀ j, j ≤ i → o.good (h j)) (hl : ∀ j, j ≤ i → o.good (l j))
    (len : Nat) (osPrev : Int) :
    ∃ top btm os, swings (tab (i + 1) h) (tab (i + 1) l) len osPrev = .ok (top, btm, os) ∧
      ((os = osPrev ∧ top = fl 0 ∧ btm = fl 0) ∨
       (os = 0 ∧ osPrev ≠ 0 ∧ len ≤ i ∧ top = h (i - len) ∧ btm = fl 0 ∧ PeakAt o h len (i - len)) ∨
       (os = 1 ∧ osPrev ≠ 1 ∧ len ≤ i ∧ btm = l (i - len) ∧ top = fl 0 ∧ DipAt o l len (i - len))) := by
  obtain ⟨u, hu, gu, u1, u2⟩ := Highest_key o hh len
  obtain ⟨w, hw, gw, w1, w2⟩ := Lowest_key o hl len
  have e1 : ((i + 1 : Nat) : Int) - 1 = (i : Int) := by omega
  unfold swings
  simp only [hu, hw, ok_bind, tab_length, e1, idx_tab (show i < i + 1 by omega)]
  by_cases hi : len ≤ i
  · have c1 : ((i + 1 : Nat) : Int) - len - 1 ≥ 0 := by omega
    have e2 : ((i + 1 : Nat) : Int) - (len : Int) - 1 = ((i - len : Nat) : Int) := by omega
    rw [if_pos c1, if_pos c1]
    simp only [e2, idx_tab (show i - len < i + 1 by omega), ok_bind, GoFloat.gt]
    refine ⟨_, _, _, rfl, ?_⟩
    have gh := hh (i - len) (by omega)
    have gl := hl (i - len) (by omega)
    by_cases p : (u <. h (i - len)) = true
    · simp only [p, if_true]
      have hp := (o.lt_iff gu gh).mp p
      by_cases q : osPrev = 0
      · left; subst q; simp
      · right; left
        refine ⟨trivial, q, hi, by simp [q], by simp, fun d d1 d2 => ?_⟩
        have := u2 (len - d) (by omega) (by omega)
        rw [show i - (len - d) = i - len + d by omega] at this
        exact lt_of_le_of_lt this hp
    · simp only [p]
      by_cases p2 : (l (i - len) <. w) = true
      · simp only [p2]
        have hp := (o.lt_iff gl gw).mp p2
        by_cases q : osPrev = 1
        · left; subst q; simp
        · right; right
          refine ⟨by simp, q, hi, by simp [q], by simp, fun d d1 d2 => ?_⟩
          have := w2 (len - d) (by omega) (by omega)
          rw [show i - (len - d) = i - len + d by omega] at this
          exact lt_of_lt_of_le hp this
      · left; simp [p2]
  · have c1 : ¬ (((i + 1 : Nat) : Int) - len - 1 ≥ 0) := by omega
    rw [if_neg c1, if_neg c1]
    simp only [pure_eq_ok, ok_bind, GoFloat.gt]
    refine ⟨_, _, _, rfl, ?_⟩
    have p : (u <. h i) = false := by
      rw [← Bool.not_eq_true, o.lt_iff gu (hh i le_rfl)]; exact not_lt.mpr u1
    have p2 : (l i <. w) = false := by
      rw [← Bool.not_eq_true, o.lt_iff (hl i le_rfl) gw]; exact not_lt.mpr w1
    left; simp [p, p2]

/-! ## Lines -/

theorem draw_spec {data : List (Rec F)} {lo hi : Nat} (put : Rec F → Rec F) (h : hi < data.length) :
    ∃ d, draw data lo hi put = .ok d ∧ d.length = data.length ∧
      ∀ k : Nat, d[k]? = if lo ≤ k ∧ k ≤ hi then data[k]?.map put else data[k]? := by
  unfold draw
  by_cases hlo : lo ≤ hi + 1
  · have e : (hi : Int) + 1 = ((hi + 1 : Nat) : Int) := by omega
    rw [e]
    obtain ⟨d, hd, h1, h2⟩ := goFor_inv' (s := data) hlo
      (body := fun (k : Int) (d : List (Rec F)) => do
        let r ← idx d k
        setAt d k (put r))
      (fun j d => d.length = data.length ∧
        ∀ k : Nat, d[k]? = if lo ≤ k ∧ k < j then data[k]?.map put else data[k]?)
      ⟨rfl, fun k => by rw [if_neg (by omega)]⟩
      (by
        rintro j d hj1 hj2 ⟨h1, h2⟩
        have hj : j < d.length := by omega
        have hidx : idx d (j : Int) = .ok d[j] := idx_of_getElem? (List.getElem?_eq_getElem hj)
        simp only [hidx, ok_bind, setAt_nat hj]
        refine ⟨_, rfl, by simpa using h1, fun k => ?_⟩
        have h3 := h2 j
        rw [if_neg (by omega), List.getElem?_eq_getElem hj] at h3
        rw [List.getElem?_set]
        by_cases hk : j = k
        · subst hk
          rw [if_pos rfl, if_pos hj, if_pos (by omega), ← h3]; rfl
        · rw [if_neg hk, h2 k]
          by_cases h4 : lo ≤ k ∧ k < j
          · rw [if_pos h4, if_pos (by omega)]
          · rw [if_neg h4, if_neg (by omega)])
    refine ⟨d, hd, h1, fun k => ?_⟩
    rw [h2 k]
    by_cases h4 : lo ≤ k ∧ k < hi + 1
    · rw [if_pos h4, if_pos (by omega)]
    · rw [if_neg h4, if_neg (by omega)]
  · rw [goFor_empty (by omega)]
    exact ⟨data, rfl, rfl, fun k => by rw [if_neg (by omega)]⟩

/-! ## Removing order blocks -/

/-- The blocks that stay: not broken by the close, and among the first `number + 1`. -/
def kept (close : F) (number : Int) : Int → List (Block F) → List (Block F)
  | _, [] => []
  | j, b :: rest =>
    if broken close b = true ∨ j > number then kept close number (j + 1) rest
    else b :: kept close number (j + 1) rest

/-- No two blocks of the same direction and time. -/
def Uniq (l : List (Block F)) : Prop := l.Pairwise fun a b => ¬ (a.isTop = b.isTop ∧ a.time = b.time)

theorem kept_sublist (close : F) (number : Int) (l : List (Block F)) (j : Int) :
    (kept close number j l).Sublist l := by
  induction l generalizing j with
  | nil => exact List.Sublist.refl _
  | cons b l ih =>
    rw [kept]
    split
    · exact (ih _).trans (List.sublist_cons_self _ _)
    · exact (ih _).cons_cons b

theorem kept_unbroken (close : F) (number : Int) (l : List (Block F)) (j : Int) :
    ∀ b ∈ kept close number j l, broken close b = false := by
  induction l generalizing j with
  | nil => intro b hb; cases hb
  | cons a l ih =>
    intro b hb
    rw [kept] at hb
    split at hb
    · exact ih _ b hb
    · next h =>
      rcases List.mem_cons.mp hb with rfl | hb
      · rw [← Bool.not_eq_true]; exact fun h' => h (.inl h')
      · exact ih _ b hb

theorem kept_length (close : F) (number : Int) (l : List (Block F)) (j : Int) :
    ((kept close number j l).length : Int) ≤ max 0 (number + 1 - j) := by
  induction l generalizing j with
  | nil => simp [kept]
  | cons a l ih =>
    rw [kept]
    split
    · have := ih (j + 1); omega
    · next h =>
      have := ih (j + 1)
      rw [List.length_cons]
      push Not at h
      omega

/-- The blocks that go. -/
def dropped (close : F) (number : Int) : Int → List (Block F) → List (Block F)
  | _, [] => []
  | j, b :: rest =>
    if broken close b = true ∨ j > number then b :: dropped close number (j + 1) rest
    else dropped close number (j + 1) rest

theorem marked_eq (close : F) (number : Int) (l : List (Block F)) (j : Int) (r : List (Block F)) (hu : Uniq l)
    (hr : ∀ a ∈ r, ∀ b ∈ l, ¬ (a.isTop = b.isTop ∧ a.time = b.time)) :
    marked close number j l r = r ++ dropped close number j l := by
  induction l generalizing j r with
  | nil => simp [marked, dropped]
  | cons b l ih =>
    obtain ⟨hb, hu'⟩ := List.pairwise_cons.mp hu
    have nc : Contains r b = false := by
      rw [← Bool.not_eq_true, Contains_iff]
      rintro ⟨a, ha, hs⟩
      exact hr a ha b List.mem_cons_self hs
    have c1 : Contains (r ++ [b]) b = true := (Contains_iff _ _).mpr ⟨b, by simp, rfl, rfl⟩
    have hr1 : ∀ a ∈ r ++ [b], ∀ b' ∈ l, ¬ (a.isTop = b'.isTop ∧ a.time = b'.time) := by
      intro a ha b' hb'
      rcases List.mem_append.mp ha with h | h
      · exact hr a h b' (List.mem_cons_of_mem _ hb')
      · rw [List.mem_singleton.mp h]; exact hb b' hb'
    have hr2 : ∀ a ∈ r, ∀ b' ∈ l, ¬ (a.isTop = b'.isTop ∧ a.time = b'.time) :=
      fun a ha b' hb' => hr a ha b' (List.mem_cons_of_mem _ hb')
    rw [marked, dropped]
    by_cases p : broken close b = true
    · simp only [p, if_true, true_or, c1]
      rw [if_neg (by simp), ih _ _ hu' hr1]
      simp
    · by_cases q : j > number
      · have hp : (if broken close b = true then r ++ [b] else r) = r := if_neg p
        simp only [hp, q, or_true, if_true]
        rw [if_pos (by simp [nc]), ih _ _ hu' hr1]
        simp
      · simp only [p, q]
        simp only [or_self, false_and, if_false, Bool.false_eq_true]
        rw [ih _ _ hu' hr2]

theorem removeAll_eq (close : F) (number : Int) (l pre : List (Block F)) (j : Int) (hu : Uniq (pre ++ l)) :
    removeAll (dropped close number j l) (pre ++ l) = .ok (pre ++ kept close number j l) := by
  induction l generalizing j pre with
  | nil => simp [dropped, kept, removeAll]
  | cons b l ih =>
    rw [dropped, kept]
    have hb : ∀ a ∈ pre, ¬ (a.isTop = b.isTop ∧ a.time = b.time) := fun a ha =>
      (List.pairwise_append.mp hu).2.2 a ha b List.mem_cons_self
    split
    · rw [removeAll, Remove_eq, (Contains_iff _ _).mpr ⟨b, by simp, rfl, rfl⟩, if_pos rfl]
      have e : (pre ++ b :: l).eraseP (fun a => a.Equal b) = pre ++ l := by
        rw [List.eraseP_append_right]
        · rw [List.eraseP_cons_of_pos (p := fun a : Block F => a.Equal b)]
          exact (Equal_iff _ _).mpr ⟨rfl, rfl⟩
        · intro a ha h; exact hb a ha ((Equal_iff _ _).mp h)
      rw [e, ok_bind]
      exact ih pre (j + 1) (hu.sublist (List.Sublist.append_left (List.sublist_cons_self _ _) _))
    · have := ih (pre ++ [b]) (j + 1) (by simpa using hu)
      simpa using this

theorem prune_eq (close : F) (number : Int) (l : List (Block F)) (hu : Uniq l) :
    prune close number l = .ok (kept close number 0 l) := by
  rw [prune, marked_eq close number l 0 [] hu (fun a ha => absurd ha (by simp)), List.nil_append]
  exact removeAll_eq close number l [] 0 (by simpa using hu)

theorem Uniq.add {l : List (Block F)} (hu : Uniq l) (b : Block F) : Uniq (Ind.Add l b) := by
  unfold Ind.Add
  by_cases hc : Contains l b = true
  · rw [hc]; exact hu
  · rw [Bool.not_eq_true] at hc
    rw [hc]
    refine List.pairwise_cons.mpr ⟨fun a ha hs => ?_, hu⟩
    have : Contains l b = true := (Contains_iff l b).mpr ⟨a, ha, hs.1.symm, hs.2.symm⟩
    rw [hc] at this; cases this

theorem mem_add {l : List (Block F)} {b c : Block F} (h : c ∈ Ind.Add l b) : c = b ∨ c ∈ l := by
  unfold Ind.Add at h
  split at h
  · exact List.mem_cons.mp h
  · exact .inr h

/-! ## Choosing an order block -/

/-- The order block made of candle `m`. -/
def blockOf (x : Nat → Candle F) (isTop : Bool) (m : Nat) : Block F :=
  { isTop := isTop, time := ti x m, close := cl x m, high := hi x m, low := lo x m, open_ := op x m }

/-- A candle whose range is below twice the average true range. -/
def Narrow (h l a : Nat → F) (j : Nat) : Prop := ((h j -. l j) <. (a j *. fl 2)) = true

/-- Candle `m` is a narrow candle from `loc` to `index`, none of the narrow candles there has a higher high, and no
earlier one the same high. -/
def TopChoice (h l a : Nat → F) (loc index m : Nat) : Prop :=
  loc ≤ m ∧ m ≤ index ∧ Narrow h l a m ∧ ∀ j, loc ≤ j → j ≤ index → Narrow h l a j →
    o.key (h j) ≤ o.key (h m) ∧ (j < m → o.key (h j) < o.key (h m))

/-- The same for the lowest low. -/
def BottomChoice (h l a : Nat → F) (loc index m : Nat) : Prop :=
  loc ≤ m ∧ m ≤ index ∧ Narrow h l a m ∧ ∀ j, loc ≤ j → j ≤ index → Narrow h l a j →
    o.key (l m) ≤ o.key (l j) ∧ (j < m → o.key (l m) < o.key (l j))

theorem setPrev_prev (e : Obj F) {ty : Int} (hty : ty = 1 ∨ ty = 2) : e.setPrev ty (e.prev ty) = e := by
  rcases hty with rfl | rfl <;> simp [Obj.setPrev, Obj.prev]

theorem prev_setPrev (e : Obj F) {ty : Int} (hty : ty = 1 ∨ ty = 2) (p : Int) : (e.setPrev ty p).prev ty = p := by
  rcases hty with rfl | rfl <;> simp [Obj.setPrev, Obj.prev]

theorem setPrev_setPrev (e : Obj F) {ty : Int} (hty : ty = 1 ∨ ty = 2) (p q : Int) :
    (e.setPrev ty p).setPrev ty q = e.setPrev ty q := by
  rcases hty with rfl | rfl <;> simp [Obj.setPrev]

variable {o}

theorem max_key (ho : Laws o) {a b : F} (ha : o.good a) (hb : o.good b) :
    o.key (GoFloat.max a b) = max (o.key a) (o.key b) := by
  rcases ho.max_or ha hb with h | h
  · rw [h]; have := ho.max_right ha hb; rw [h] at this; rw [max_eq_left this]
  · rw [h]; have := ho.max_left ha hb; rw [h] at this; rw [max_eq_right this]

theorem min_key (ho : Laws o) {a b : F} (ha : o.good a) (hb : o.good b) :
    o.key (GoFloat.min a b) = min (o.key a) (o.key b) := by
  rcases ho.min_or ha hb with h | h
  · rw [h]; have := ho.min_right ha hb; rw [h] at this; rw [min_eq_left this]
  · rw [h]; have := ho.min_left ha hb; rw [h] at this; rw [min_eq_right this]

theorem max_good (ho : Laws o) {a b : F} (ha : o.good a) (hb : o.good b) : o.good (GoFloat.max a b) := by
  rcases ho.max_or ha hb with h | h <;> rw [h] <;> assumption

theorem min_good (ho : Laws o) {a b : F} (ha : o.good a) (hb : o.good b) : o.good (GoFloat.min a b) := by
  rcases ho.min_or ha hb with h | h <;> rw [h] <;> assumption

theorem obTop (ho : Laws o) {n index loc : Nat} {x : Nat → Candle F} {a : Nat → F} {e : Obj F} {ty : Int}
    (hty : ty = 1 ∨ ty = 2) (list : List (Block F)) (hn : index < n) (h1 : 1 ≤ index) (hloc : loc ≤ index)
    (hg : ∀ j, j ≤ index → o.good (hi x j)) {p0 : Nat} (hp0 : e.prev ty = p0) (hp0' : p0 ≤ index) :
    ∃ p m : Nat, p ≤ index ∧ m ≤ index ∧
      obCoord (ohlcOf n x) e true index loc (tab (index + 1) (hi x)) (tab (index + 1) (lo x)) (tab (index + 1) a)
        list ty = .ok (e.setPrev ty p, Ind.Add list (blockOf x true m)) ∧
      ((m = 1 ∧ p = p0 ∧ ∀ j, loc ≤ j → j ≤ index → ¬ Narrow (hi x) (lo x) a j) ∨
       (m = p ∧ (∃ j, loc ≤ j ∧ j ≤ index ∧ Narrow (hi x) (lo x) a j) ∧
         ((∀ j, loc ≤ j → j ≤ index → o.key (fl 0 : F) ≤ o.key (hi x j)) →
          TopChoice o (hi x) (lo x) a loc index m))) := by
  unfold obCoord
  have e0 : (index : Int) - (loc : Int) + 1 = ((index - loc + 1 : Nat) : Int) := by omega
  simp only [e0, if_true]
  obtain ⟨⟨mn, mx, ix, e'⟩, hs, p, hp, he, hgm, hP⟩ := goFor_inv (n := index - loc + 1)
    (s := ((lit 99999999 : F), (fl 0 : F), (1 : Int), e))
    (body := fun d s => obTopStep (tab (index + 1) (hi x)) (tab (index + 1) (lo x)) (tab (index + 1) a) ty
      ((index : Int) - d) s)
    (fun d s => ∃ p : Nat, p ≤ index ∧ s.2.2.2 = e.setPrev ty p ∧ o.good s.2.1 ∧
      ((s.2.2.1 = 1 ∧ s.2.1 = fl 0 ∧ p = p0 ∧ ∀ j, index + 1 - d ≤ j → j ≤ index → ¬ Narrow (hi x) (lo x) a j) ∨
       (s.2.2.1 = p ∧ (∃ j, index + 1 - d ≤ j ∧ j ≤ index ∧ Narrow (hi x) (lo x) a j) ∧
        ((∀ j, loc ≤ j → j ≤ index → o.key (fl 0 : F) ≤ o.key (hi x j)) →
          o.key s.2.1 = o.key (hi x p) ∧ TopChoice o (hi x) (lo x) a (index + 1 - d) index p))))
    ⟨p0, hp0', by rw [← hp0, setPrev_prev e hty], ho.zero, .inl ⟨rfl, rfl, rfl, fun j h1 h2 => by omega⟩⟩
    (by
      rintro d ⟨mn, mx, ix, e'⟩ hd ⟨p, hp, he, hgm, hP⟩
      simp only at he hgm hP
      subst he
      have ei : (index : Int) - (d : Int) = ((index - d : Nat) : Int) := by omega
      have hgi := hg (index - d) (by omega)
      simp only [obTopStep, ei, idx_tab (show index - d < index + 1 by omega), ok_bind]
      by_cases hN : ((hi x (index - d) -. lo x (index - d)) <. (a (index - d) *. fl 2)) = true
      · simp only [hN, if_true]
        by_cases hc : (GoFloat.max (hi x (index - d)) mx ==. hi x (index - d)) = true
        · simp only [hc, if_true]
          refine ⟨_, rfl, index - d, by omega, setPrev_setPrev e hty _ _, max_good ho hgi hgm, .inr ⟨rfl,
            ⟨index - d, by omega, by omega, hN⟩, fun hpos => ?_⟩⟩
          have hk := (o.eq_iff (max_good ho hgi hgm) hgi).mp hc
          have hle : o.key mx ≤ o.key (hi x (index - d)) := by rw [← hk]; exact ho.max_right hgi hgm
          refine ⟨hk, by omega, by omega, hN, fun j hj1 hj2 hNj => ?_⟩
          by_cases hj : j = index - d
          · subst hj; exact ⟨le_rfl, fun h => absurd h (by omega)⟩
          · refine ⟨?_, fun h => absurd h (by omega)⟩
            rcases hP with ⟨_, _, _, hno⟩ | ⟨_, _, hch⟩
            · exact absurd hNj (hno j (by omega) hj2)
            · obtain ⟨hmx, _, _, _, hall⟩ := hch hpos
              exact le_trans (hall j (by omega) hj2 hNj).1 (by rw [← hmx]; exact hle)
        · simp only [hc, prev_setPrev e hty]
          have hk : ¬ (o.key (GoFloat.max (hi x (index - d)) mx) = o.key (hi x (index - d))) :=
            fun h => hc ((o.eq_iff (max_good ho hgi hgm) hgi).mpr h)
          rw [max_key ho hgi hgm] at hk
          have hlt : o.key (hi x (index - d)) < o.key mx := by
            by_contra h
            exact hk (max_eq_left (not_lt.mp h))
          refine ⟨_, rfl, p, hp, by simp [setPrev_setPrev e hty], max_good ho hgi hgm, .inr ⟨by simp,
            ⟨index - d, by omega, by omega, hN⟩, fun hpos => ?_⟩⟩
          rcases hP with ⟨_, h0, _, _⟩ | ⟨_, _, hch⟩
          · rw [h0] at hlt
            exact absurd hlt (not_lt.mpr (hpos _ (by omega) (by omega)))
          · obtain ⟨hmx, c1, c2, c3, hall⟩ := hch hpos
            refine ⟨by show o.key (GoFloat.max (hi x (index - d)) mx) = _
                       rw [max_key ho hgi hgm, max_eq_right hlt.le, hmx], by omega, c2, c3, fun j hj1 hj2 hNj => ?_⟩
            by_cases hj : j = index - d
            · subst hj; rw [← hmx]; exact ⟨hlt.le, fun _ => hlt⟩
            · exact hall j (by omega) hj2 hNj
      · simp only [hN]
        refine ⟨_, rfl, p, hp, rfl, hgm, ?_⟩
        rcases hP with ⟨h1, h2, h3, hno⟩ | ⟨h1, ⟨j, j1, j2, j3⟩, hch⟩
        · refine .inl ⟨h1, h2, h3, fun j hj1 hj2 hNj => ?_⟩
          by_cases hj : j = index - d
          · subst hj; exact hN hNj
          · exact hno j (by omega) hj2 hNj
        · refine .inr ⟨h1, ⟨j, by omega, j2, j3⟩, fun hpos => ?_⟩
          obtain ⟨hmx, c1, c2, c3, hall⟩ := hch hpos
          refine ⟨hmx, by omega, c2, c3, fun j hj1 hj2 hNj => ?_⟩
          by_cases hj : j = index - d
          · subst hj; exact absurd hNj hN
          · exact hall j (by omega) hj2 hNj)
  simp only at he hP
  subst he
  have hl : index + 1 - (index - loc + 1) = loc := by omega
  rw [hl] at hP
  obtain ⟨m, hm, hm', hfin⟩ : ∃ m : Nat, ix = m ∧ m ≤ index ∧
      ((m = 1 ∧ p = p0 ∧ ∀ j, loc ≤ j → j ≤ index → ¬ Narrow (hi x) (lo x) a j) ∨
       (m = p ∧ (∃ j, loc ≤ j ∧ j ≤ index ∧ Narrow (hi x) (lo x) a j) ∧
         ((∀ j, loc ≤ j → j ≤ index → o.key (fl 0 : F) ≤ o.key (hi x j)) →
          TopChoice o (hi x) (lo x) a loc index m))) := by
    rcases hP with ⟨h1, _, h3, hno⟩ | ⟨h1, h2, hch⟩
    · exact ⟨1, h1, by omega, .inl ⟨rfl, h3, hno⟩⟩
    · exact ⟨p, h1, hp, .inr ⟨rfl, h2, fun hpos => (hch hpos).2⟩⟩
  refine ⟨p, m, hp, hm', ?_, hfin⟩
  subst hm
  rw [hs]
  simp only [ohlcOf, ok_bind, idx_tab (show m < n by omega), idx_tab (show m < index + 1 by omega)]
  rfl

theorem obBottom (ho : Laws o) {n index loc : Nat} {x : Nat → Candle F} {a : Nat → F} {e : Obj F} {ty : Int}
    (hty : ty = 1 ∨ ty = 2) (list : List (Block F)) (hn : index < n) (h1 : 1 ≤ index) (hloc : loc ≤ index)
    (hg : ∀ j, j ≤ index → o.good (lo x j)) {p0 : Nat} (hp0 : e.prev ty = p0) (hp0' : p0 ≤ index) :
    ∃ p m : Nat, p ≤ index ∧ m ≤ index ∧
      obCoord (ohlcOf n x) e false index loc (tab (index + 1) (hi x)) (tab (index + 1) (lo x)) (tab (index + 1) a)
        list ty = .ok (e.setPrev ty p, Ind.Add list (blockOf x false m)) ∧
      ((m = 1 ∧ p = p0 ∧ ∀ j, loc ≤ j → j ≤ index → ¬ Narrow (hi x) (lo x) a j) ∨
       (m = p ∧ (∃ j, loc ≤ j ∧ j ≤ index ∧ Narrow (hi x) (lo x) a j) ∧
         ((∀ j, loc ≤ j → j ≤ index → o.key (lo x j) ≤ o.key (lit 99999999 : F)) →
          BottomChoice o (hi x) (lo x) a loc index m))) := by
  unfold obCoord
  have e0 : (index : Int) - (loc : Int) + 1 = ((index - loc + 1 : Nat) : Int) := by omega
  simp only [e0, if_false, Bool.false_eq_true]
  obtain ⟨⟨mn, mx, ix, e'⟩, hs, p, hp, he, hgm, hP⟩ := goFor_inv (n := index - loc + 1)
    (s := ((lit 99999999 : F), (fl 0 : F), (1 : Int), e))
    (body := fun d s => obBottomStep (tab (index + 1) (hi x)) (tab (index + 1) (lo x)) (tab (index + 1) a) ty
      ((index : Int) - d) s)
    (fun d s => ∃ p : Nat, p ≤ index ∧ s.2.2.2 = e.setPrev ty p ∧ o.good s.1 ∧
      ((s.2.2.1 = 1 ∧ s.1 = lit 99999999 ∧ p = p0 ∧ ∀ j, index + 1 - d ≤ j → j ≤ index → ¬ Narrow (hi x) (lo x) a j) ∨
       (s.2.2.1 = p ∧ (∃ j, index + 1 - d ≤ j ∧ j ≤ index ∧ Narrow (hi x) (lo x) a j) ∧
        ((∀ j, loc ≤ j → j ≤ index → o.key (lo x j) ≤ o.key (lit 99999999 : F)) →
          o.key s.1 = o.key (lo x p) ∧ BottomChoice o (hi x) (lo x) a (index + 1 - d) index p))))
    ⟨p0, hp0', by rw [← hp0, setPrev_prev e hty], ho.big, .inl ⟨rfl, rfl, rfl, fun j h1 h2 => by omega⟩⟩
    (by
      rintro d ⟨mn, mx, ix, e'⟩ hd ⟨p, hp, he, hgm, hP⟩
      simp only at he hgm hP
      subst he
      have ei : (index : Int) - (d : Int) = ((index - d : Nat) : Int) := by omega
      have hgi := hg (index - d) (by omega)
      simp only [obBottomStep, ei, idx_tab (show index - d < index + 1 by omega), ok_bind]
      by_cases hN : ((hi x (index - d) -. lo x (index - d)) <. (a (index - d) *. fl 2)) = true
      · simp only [hN, if_true]
        by_cases hc : (GoFloat.min (lo x (index - d)) mn ==. lo x (index - d)) = true
        · simp only [hc, if_true]
          refine ⟨_, rfl, index - d, by omega, setPrev_setPrev e hty _ _, min_good ho hgi hgm, .inr ⟨rfl,
            ⟨index - d, by omega, by omega, hN⟩, fun hpos => ?_⟩⟩
          have hk := (o.eq_iff (min_good ho hgi hgm) hgi).mp hc
          have hle : o.key (lo x (index - d)) ≤ o.key mn := by rw [← hk]; exact ho.min_right hgi hgm
          refine ⟨hk, by omega, by omega, hN, fun j hj1 hj2 hNj => ?_⟩
          by_cases hj : j = index - d
          · subst hj; exact ⟨le_rfl, fun h => absurd h (by omega)⟩
          · refine ⟨?_, fun h => absurd h (by omega)⟩
            rcases hP with ⟨_, _, _, hno⟩ | ⟨_, _, hch⟩
            · exact absurd hNj (hno j (by omega) hj2)
            · obtain ⟨hmx, _, _, _, hall⟩ := hch hpos
              exact le_trans (by rw [← hmx]; exact hle) (hall j (by omega) hj2 hNj).1
        · simp only [hc, prev_setPrev e hty]
          have hk : ¬ (o.key (GoFloat.min (lo x (index - d)) mn) = o.key (lo x (index - d))) :=
            fun h => hc ((o.eq_iff (min_good ho hgi hgm) hgi).mpr h)
          rw [min_key ho hgi hgm] at hk
          have hlt : o.key mn < o.key (lo x (index - d)) := by
            by_contra h
            exact hk (min_eq_left (not_lt.mp h))
          refine ⟨_, rfl, p, hp, by simp [setPrev_setPrev e hty], min_good ho hgi hgm, .inr ⟨by simp,
            ⟨index - d, by omega, by omega, hN⟩, fun hpos => ?_⟩⟩
          rcases hP with ⟨_, h0, _, _⟩ | ⟨_, _, hch⟩
          · rw [h0] at hlt
            exact absurd hlt (not_lt.mpr (hpos _ (by omega) (by omega)))
          · obtain ⟨hmx, c1, c2, c3, hall⟩ := hch hpos
            refine ⟨by show o.key (GoFloat.min (lo x (index - d)) mn) = _
                       rw [min_key ho hgi hgm, min_eq_right hlt.le, hmx], by omega, c2, c3, fun j hj1 hj2 hNj => ?_⟩
            by_cases hj : j = index - d
            · subst hj; rw [← hmx]; exact ⟨hlt.le, fun _ => hlt⟩
            · exact hall j (by omega) hj2 hNj
      · simp only [hN]
        refine ⟨_, rfl, p, hp, rfl, hgm, ?_⟩
        rcases hP with ⟨h1, h2, h3, hno⟩ | ⟨h1, ⟨j, j1, j2, j3⟩, hch⟩
        · refine .inl ⟨h1, h2, h3, fun j hj1 hj2 hNj => ?_⟩
          by_cases hj : j = index - d
          · subst hj; exact hN hNj
          · exact hno j (by omega) hj2 hNj
        · refine .inr ⟨h1, ⟨j, by omega, j2, j3⟩, fun hpos => ?_⟩
          obtain ⟨hmx, c1, c2, c3, hall⟩ := hch hpos
          refine ⟨hmx, by omega, c2, c3, fun j hj1 hj2 hNj => ?_⟩
          by_cases hj : j = index - d
          · subst hj; exact absurd hNj hN
          · exact hall j (by omega) hj2 hNj)
  simp only at he hP
  subst he
  have hl : index + 1 - (index - loc + 1) = loc := by omega
  rw [hl] at hP
  obtain ⟨m, hm, hm', hfin⟩ : ∃ m : Nat, ix = m ∧ m ≤ index ∧
      ((m = 1 ∧ p = p0 ∧ ∀ j, loc ≤ j → j ≤ index → ¬ Narrow (hi x) (lo x) a j) ∨
       (m = p ∧ (∃ j, loc ≤ j ∧ j ≤ index ∧ Narrow (hi x) (lo x) a j) ∧
         ((∀ j, loc ≤ j → j ≤ index → o.key (lo x j) ≤ o.key (lit 99999999 : F)) →
          BottomChoice o (hi x) (lo x) a loc index m))) := by
    rcases hP with ⟨h1, _, h3, hno⟩ | ⟨h1, h2, hch⟩
    · exact ⟨1, h1, by omega, .inl ⟨rfl, h3, hno⟩⟩
    · exact ⟨p, h1, hp, .inr ⟨rfl, h2, fun hpos => (hch hpos).2⟩⟩
  refine ⟨p, m, hp, hm', ?_, hfin⟩
  subst hm
  rw [hs]
  simp only [ohlcOf, ok_bind, idx_tab (show m < n by omega), idx_tab (show m < index + 1 by omega)]
  rfl

end Verif.Ind.Smc
