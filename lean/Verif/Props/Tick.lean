import Verif.Props.Mirror

/-!
# The price ticks up within the current candle (C127)

Two series that differ only in their last candle: in the second one the price has risen further, so that the close is
higher and the high is at least the new close. Exact arithmetic.
-/

set_option linter.unusedSectionVars false
set_option linter.unusedVariables false

namespace Verif.Props
open Verif Verif.Klines Verif.Ta Verif.Ind GoFloat XF

variable {K : Type} [Field K] [LinearOrder K] [IsStrictOrderedRing K]

/-! ## Vocabulary -/

/-- The candle after the price has moved to `q`, at or above its previous last price. `f` is the flag that marks candles of
a rising market. -/
def tickC (q : K) (f : Bool) (k : Candle (XF K)) : Candle (XF K) :=
  { k with close := .fin q, high := if k.high <. .fin q then .fin q else k.high, isBull := f }

/-- `jt` is `it` after the price of the last candle has risen; a candle marked as rising remains so. The candles of `it` hold
numbers and have the property `Q`. -/
def Uptick (Q : Bar K → Prop) (it jt : Item (XF K)) : Prop :=
  ∃ cs k q c f, it.candles = cs ++ [k] ∧ jt.candles = cs ++ [tickC q f k] ∧ k.close = .fin c ∧ c ≤ q ∧
    (k.isBull = true → f = true) ∧ Bars Q it

/-- After an uptick `GetData` panics if and only if it did before, and the last value of the line `u` is not lower. -/
def Rises (Q : Bar K → Prop) (I : Indicator (XF K)) (u : I.D → XF K) : Prop :=
  ∀ it jt, Uptick Q it jt → (I.data it).toOption.isSome = (I.data jt).toOption.isSome ∧
    ∀ d e, I.data it = .ok d → I.data jt = .ok e → ∃ r s a c, d.getLast? = some r ∧ e.getLast? = some s ∧
      u r = .fin a ∧ u s = .fin c ∧ a ≤ c

/-- How bullish a signal is. -/
def bull (s : Side) : Int := if s = Buy then 1 else if s = Sell then -1 else 0

/-- After an uptick of a series of two or more candles the last signal is not less bullish. -/
def SidesRise (Q : Bar K → Prop) (I : Strat (XF K)) : Prop :=
  ∀ it jt, Uptick Q it jt → 2 ≤ it.candles.length → ∀ s t, I.signals it = .ok s → I.signals jt = .ok t →
    ∃ a c, s.getLast? = some a ∧ t.getLast? = some c ∧ bull a ≤ bull c

/-- After an uptick of a series of two or more candles the last signal is not more bullish. -/
def SidesFall (Q : Bar K → Prop) (I : Strat (XF K)) : Prop :=
  ∀ it jt, Uptick Q it jt → 2 ≤ it.candles.length → ∀ s t, I.signals it = .ok s → I.signals jt = .ok t →
    ∃ a c, s.getLast? = some a ∧ t.getLast? = some c ∧ bull c ≤ bull a

/-! ## Tools -/

/-- The bars before and after: the same below `n`, and bar `n` after an uptick. -/
structure TickB (n : Nat) (b b' : Nat → Bar K) : Prop where
  same : ∀ j < n, b' j = b j
  o : (b' n).o = (b n).o
  l : (b' n).l = (b n).l
  v : (b' n).v = (b n).v
  c : (b n).c ≤ (b' n).c
  h : (b' n).h = max (b n).h (b' n).c

theorem TickB.h_le {n : Nat} {b b' : Nat → Bar K} (h : TickB n b b') : (b n).h ≤ (b' n).h := by
  rw [h.h]; exact le_max_left _ _

theorem TickB.c_le {n : Nat} {b b' : Nat → Bar K} (h : TickB n b b') : (b' n).c ≤ (b' n).h := by
  rw [h.h]; exact le_max_right _ _

/-- The high rises by no more than the close. -/
theorem TickB.h_sub {n : Nat} {b b' : Nat → Bar K} (h : TickB n b b') (hw : (b n).c ≤ (b n).h) :
    (b' n).h - (b n).h ≤ (b' n).c - (b n).c := by
  have := h.c
  rw [h.h]
  rcases max_choice (b n).h (b' n).c with e | e <;> rw [e] <;> linarith

theorem Uptick.tabs {Q : Bar K → Prop} {it jt : Item (XF K)} (h : Uptick Q it jt) :
    ∃ n x y b b', it.candles = tab (n + 1) x ∧ jt.candles = tab (n + 1) y ∧ it.candles.length = n + 1 ∧
      Cols (n + 1) x b ∧ Cols (n + 1) y b' ∧ TickB n b b' ∧ (∀ j < n + 1, Q (b j)) ∧ (bu x n = true → bu y n = true) := by
  obtain ⟨cs, k, q, c, f, h1, h2, h3, h4, h5, hb⟩ := h
  obtain ⟨x, b, hx, hC, hQ⟩ := hb.cols
  have hl : it.candles.length = cs.length + 1 := by rw [h1, List.length_append]; rfl
  rw [hl] at hx hC hQ
  have hcs : cs = tab cs.length x := by
    have := congrArg (List.take cs.length) (h1.symm.trans hx)
    rwa [List.take_left, tab_take _ (by omega)] at this
  have hk : k = x cs.length := by
    have := congrArg (fun l => l[cs.length]?) (h1.symm.trans hx)
    simpa [tab_getElem?_lt (Nat.lt_succ_self cs.length)] using this
  set n := cs.length with hn
  have e1 : ∀ i, (x i).open_ = .fin (b i).o := congrFun hC.op
  have e2 : ∀ i, (x i).high = .fin (b i).h := congrFun hC.hi
  have e3 : ∀ i, (x i).low = .fin (b i).l := congrFun hC.lo
  have e4 : ∀ i, (x i).close = .fin (b i).c := congrFun hC.cl
  have e5 : ∀ i, (x i).volume = .fin (b i).v := congrFun hC.vo
  have hc : c = (b n).c := by rw [hk, e4] at h3; exact (XF.fin.inj h3).symm
  refine ⟨n, x, fun j => if j = n then tickC q f k else x j, b,
    fun j => if j = n then ⟨(b n).o, max (b n).h q, (b n).l, q, (b n).v⟩ else b j, hx, ?_, hl, hC, ?_, ?_, hQ, ?_⟩
  · rw [h2, tab_succ]
    congr 1
    · conv_lhs => rw [hcs]
      exact tab_ext fun j hj => by rw [if_neg (by omega)]
    · simp
  · have hh : (tickC q f k).high = .fin (max (b n).h q) := by
      rw [tickC, hk, e2, lt_fin]
      by_cases hq : (b n).h < q
      · simp [hq, max_eq_right hq.le]
      · simp [hq, max_eq_left (not_lt.mp hq)]
    constructor <;> funext j <;> simp only [Ind.op, Ind.hi, Ind.lo, Ind.cl, Ind.vo, finF] <;> split
    · rw [← e1, ← hk]; rfl
    · exact e1 _
    · exact hh
    · exact e2 _
    · rw [← e3, ← hk]; rfl
    · exact e3 _
    · rfl
    · exact e4 _
    · rw [← e5, ← hk]; rfl
    · exact e5 _
  · constructor
    · intro j hj; rw [if_neg (by omega)]
    · simp
    · simp
    · simp
    · simp only [if_true]; rw [← hc]; exact h4
    · simp
  · intro h
    rw [hk] at h5
    simpa [bu, tickC] using h5 h

theorem tab_getLast {α : Type} (n : Nat) (f : Nat → α) : (tab (n + 1) f).getLast? = some (f n) := by
  rw [tab_succ, List.getLast?_append]; rfl

/-- `a'` is `a` below `n` and `a + d` at `n`. -/
structure Nudges (n : Nat) (a a' : Nat → K) (d : K) : Prop where
  same : ∀ j < n, a' j = a j
  move : a' n = a n + d

/-- Two lines that are numbers up to `n`, agree below `n`, and differ by `d` at `n`. -/
def Nudged (n : Nat) (f g : Nat → XF K) (d : K) : Prop :=
  ∃ a a', (∀ j ≤ n, f j = .fin (a j)) ∧ (∀ j ≤ n, g j = .fin (a' j)) ∧ Nudges n a a' d

theorem rises_of {Q : Bar K → Prop} {I : Indicator (XF K)} {ok} {G} (hy : Yields I ok G) {u : I.D → XF K}
    (h : ∀ n x y (b b' : Nat → Bar K), Cols (n + 1) x b → Cols (n + 1) y b' → TickB n b b' → (∀ j < n + 1, Q (b j)) →
      ∃ d, 0 ≤ d ∧ Nudged n (fun i => u (G x i)) (fun i => u (G y i)) d) : Rises Q I u := by
  intro it jt ht
  obtain ⟨n, x, y, b, b', hx, hx', hl, hC, hC', hT, hQ, -⟩ := ht.tabs
  refine ⟨?_, fun d e hd he => ?_⟩
  · by_cases hok : ok (n + 1)
    · rw [(hy _ _ _ hx).1 hok, (hy _ _ _ hx').1 hok]; rfl
    · obtain ⟨p, hp⟩ := (hy _ _ _ hx).2 hok
      obtain ⟨p', hp'⟩ := (hy _ _ _ hx').2 hok
      rw [hp, hp']; rfl
  · obtain ⟨-, rfl⟩ := yields_inv hy hx hd
    obtain ⟨-, rfl⟩ := yields_inv hy hx' he
    obtain ⟨d, hd0, a, a', ha, ha', hm⟩ := h n x y b b' hC hC' hT hQ
    refine ⟨_, _, a n, a' n, tab_getLast _ _, tab_getLast _ _, ha n le_rfl, ha' n le_rfl, ?_⟩
    rw [hm.move]; linarith

theorem sidesRise_of {Q : Bar K → Prop} {I : Strat (XF K)} {ok} {f} (hy : Signals I ok f)
    (h : ∀ n x y (b b' : Nat → Bar K), Cols (n + 1 + 1) x b → Cols (n + 1 + 1) y b' → TickB (n + 1) b b' →
      (∀ j < n + 1 + 1, Q (b j)) → (bu x (n + 1) = true → bu y (n + 1) = true) → bull (f x (n + 1)) ≤ bull (f y (n + 1))) : SidesRise Q I := by
  intro it jt ht h2 s t hs hs'
  obtain ⟨n, x, y, b, b', hx, hx', hl, hC, hC', hT, hQ, hti⟩ := ht.tabs
  obtain ⟨-, rfl⟩ := signals_inv hy hx hs
  obtain ⟨-, rfl⟩ := signals_inv hy hx' hs'
  obtain ⟨m, rfl⟩ : ∃ m, n = m + 1 := ⟨n - 1, by omega⟩
  exact ⟨_, _, tab_getLast _ _, tab_getLast _ _, h m x y b b' hC hC' hT hQ hti⟩

theorem sidesFall_of {Q : Bar K → Prop} {I : Strat (XF K)} {ok} {f} (hy : Signals I ok f)
    (h : ∀ n x y (b b' : Nat → Bar K), Cols (n + 1 + 1) x b → Cols (n + 1 + 1) y b' → TickB (n + 1) b b' →
      (∀ j < n + 1 + 1, Q (b j)) → bull (f y (n + 1)) ≤ bull (f x (n + 1))) : SidesFall Q I := by
  intro it jt ht h2 s t hs hs'
  obtain ⟨n, x, y, b, b', hx, hx', hl, hC, hC', hT, hQ, -⟩ := ht.tabs
  obtain ⟨-, rfl⟩ := signals_inv hy hx hs
  obtain ⟨-, rfl⟩ := signals_inv hy hx' hs'
  obtain ⟨m, rfl⟩ : ∃ m, n = m + 1 := ⟨n - 1, by omega⟩
  exact ⟨_, _, tab_getLast _ _, tab_getLast _ _, h m x y b b' hC hC' hT hQ⟩

theorem bull_le {B S B' S' : Bool} (h : B = true → B' = true) (h' : S' = true → S = true) :
    bull (if B then Buy else if S then Sell else Hold) ≤ bull (if B' then Buy else if S' then Sell else Hold) := by
  cases B <;> cases S <;> cases B' <;> cases S' <;> first | decide | exact absurd (h rfl) (by decide) | exact absurd (h' rfl) (by decide)

/-! ## How averages respond -/

variable {n : Nat} {f g f₁ g₁ : Nat → XF K} {d e : K}

theorem Nudged.of_eq (h : Nudged n f g d) (he : d = e) : Nudged n f g e := he ▸ h

theorem Nudged.congr {f' g' : Nat → XF K} (h : Nudged n f g d) (hf : ∀ j ≤ n, f' j = f j) (hg : ∀ j ≤ n, g' j = g j) :
    Nudged n f' g' d := by
  obtain ⟨a, a', h1, h2, hm⟩ := h
  exact ⟨a, a', fun j hj => (hf j hj).trans (h1 j hj), fun j hj => (hg j hj).trans (h2 j hj), hm⟩

theorem Nudged.fin {a a' : Nat → K} (h : Nudges n a a' d) : Nudged n (finF a) (finF a') d :=
  ⟨a, a', fun _ _ => rfl, fun _ _ => rfl, h⟩

theorem Nudged.sub (h : Nudged n f g d) (h₁ : Nudged n f₁ g₁ e) :
    Nudged n (fun j => subF (f j) (f₁ j)) (fun j => subF (g j) (g₁ j)) (d - e) := by
  obtain ⟨a, a', h1, h2, hm⟩ := h
  obtain ⟨c, c', k1, k2, km⟩ := h₁
  refine ⟨fun j => a j - c j, fun j => a' j - c' j, fun j hj => by beta_reduce; rw [h1 j hj, k1 j hj, subF_fin],
    fun j hj => by beta_reduce; rw [h2 j hj, k2 j hj, subF_fin], fun j hj => by rw [hm.same j hj, km.same j hj], ?_⟩
  rw [hm.move, km.move]; ring

theorem Nudged.minus (h : Nudged n f g d) (h₁ : Nudged n f₁ g₁ e) :
    Nudged n (fun j => f j -. f₁ j) (fun j => g j -. g₁ j) (d - e) := by
  obtain ⟨a, a', h1, h2, hm⟩ := h
  obtain ⟨c, c', k1, k2, km⟩ := h₁
  refine ⟨fun j => a j - c j, fun j => a' j - c' j, fun j hj => by beta_reduce; rw [h1 j hj, k1 j hj, sub_fin],
    fun j hj => by beta_reduce; rw [h2 j hj, k2 j hj, sub_fin], fun j hj => by rw [hm.same j hj, km.same j hj], ?_⟩
  rw [hm.move, km.move]; ring

theorem Nudged.add (h : Nudged n f g d) (h₁ : Nudged n f₁ g₁ e) :
    Nudged n (fun j => f j +. f₁ j) (fun j => g j +. g₁ j) (d + e) := by
  obtain ⟨a, a', h1, h2, hm⟩ := h
  obtain ⟨c, c', k1, k2, km⟩ := h₁
  refine ⟨fun j => a j + c j, fun j => a' j + c' j, fun j hj => by beta_reduce; rw [h1 j hj, k1 j hj, add_fin],
    fun j hj => by beta_reduce; rw [h2 j hj, k2 j hj, add_fin], fun j hj => by rw [hm.same j hj, km.same j hj], ?_⟩
  rw [hm.move, km.move]; ring

theorem Nudged.scale (h : Nudged n f g d) {w : XF K} {c : K} (hw : w = .fin c) :
    Nudged n (fun j => f j *. w) (fun j => g j *. w) (d * c) := by
  obtain ⟨a, a', h1, h2, hm⟩ := h
  subst hw
  refine ⟨fun j => a j * c, fun j => a' j * c, fun j hj => by beta_reduce; rw [h1 j hj, mul_fin],
    fun j hj => by beta_reduce; rw [h2 j hj, mul_fin], fun j hj => by rw [hm.same j hj], ?_⟩
  rw [hm.move]; ring

/-- The share of the newest value in an exponential average. -/
def emaShare (K : Type) [Field K] (p n : Nat) : K := if n = 0 then 1 else 2 / ((p : K) + 1)

theorem emaShare_nonneg (p n : Nat) : 0 ≤ emaShare K p n := by
  rw [emaShare]; split <;> positivity

theorem emaShare_le_one {p : Nat} (hp : 1 ≤ p) (n : Nat) : emaShare K p n ≤ 1 := by
  have : (1 : K) ≤ (p : K) := by exact_mod_cast hp
  rw [emaShare]
  split
  · exact le_rfl
  · rw [div_le_one (by linarith)]; linarith

theorem emaShare_anti {p q : Nat} (h : p ≤ q) (n : Nat) : emaShare K q n ≤ emaShare K p n := by
  have : (p : K) ≤ (q : K) := by exact_mod_cast h
  have h0 : (0 : K) ≤ (p : K) := Nat.cast_nonneg p
  rw [emaShare, emaShare]
  split
  · exact le_rfl
  · exact div_le_div_of_nonneg_left (by norm_num) (by linarith) (by linarith)

theorem emaK_same {p : Nat} {a a' : Nat → K} {i : Nat} (h : ∀ j ≤ i, a' j = a j) : emaK p a' i = emaK p a i := by
  induction i with
  | zero => simp only [emaK]; exact h 0 le_rfl
  | succ i ih => simp only [emaK]; rw [ih fun j hj => h j (by omega), h (i + 1) le_rfl]

theorem Nudges.ema {a a' : Nat → K} (h : Nudges n a a' d) (p : Nat) : Nudges n (emaK p a) (emaK p a') (emaShare K p n * d) := by
  refine ⟨fun j hj => emaK_same fun l hl => h.same l (by omega), ?_⟩
  cases n with
  | zero => simp only [emaK, h.move, emaShare]; simp
  | succ m =>
    have h0 : (p : K) + 1 ≠ 0 := by
      have : (0 : K) ≤ (p : K) := Nat.cast_nonneg p
      positivity
    simp only [emaK, h.move, emaShare]
    rw [emaK_same (p := p) (a := a) (a' := a') (i := m) fun j hj => h.same j (by omega), if_neg (by omega)]
    field_simp
    ring

/-- An exponential average takes up the newest value with its share. -/
theorem Nudged.ema (h : Nudged n f g d) (p : Nat) : Nudged n (emaF p f) (emaF p g) (emaShare K p n * d) := by
  obtain ⟨a, a', h1, h2, hm⟩ := h
  refine ⟨_, _, fun j hj => ?_, fun j hj => ?_, hm.ema p⟩
  · rw [emaF_upto (z := finF a) (p : Int) fun l hl => h1 l (by omega), emaF_fin]
  · rw [emaF_upto (z := finF a') (p : Int) fun l hl => h2 l (by omega), emaF_fin]

theorem psum_same {a a' : Nat → K} {k : Nat} (h : ∀ j < k, a' j = a j) : psum a' k = psum a k := by
  induction k with
  | zero => rfl
  | succ k ih => rw [psum_succ, psum_succ, ih fun j hj => h j (by omega), h k (by omega)]

theorem Nudges.psum {a a' : Nat → K} (h : Nudges n a a' d) : psum a' (n + 1) = psum a (n + 1) + d := by
  rw [psum_succ, psum_succ, psum_same h.same, h.move]; ring

theorem smaF_upto {F : Type} [GoFloat F] (p : Nat) {y z : Nat → F} {i : Nat} (h : ∀ j ≤ i, y j = z j) : smaF p y i = smaF p z i := by
  have key : ∀ k ≤ i + 1, runSum p y k = runSum p z k := by
    intro k hk
    induction k with
    | zero => rfl
    | succ k ih => rw [runSum, runSum, ih (by omega), h k (by omega)]; split <;> first | rfl | rw [h _ (by omega)]
  rw [smaF, smaF, key _ le_rfl]

/-- A simple average takes up the newest value with one share of the window. -/
theorem Nudged.sma (h : Nudged n f g d) {p : Nat} (hp : 0 < p) :
    Nudged n (smaF p f) (smaF p g) (d / (min p (n + 1) : Nat)) := by
  obtain ⟨a, a', h1, h2, hm⟩ := h
  refine ⟨fun j => (psum a (j + 1) - psum a (j + 1 - p)) / (min p (j + 1) : Nat),
    fun j => (psum a' (j + 1) - psum a' (j + 1 - p)) / (min p (j + 1) : Nat), fun j hj => ?_, fun j hj => ?_, fun j hj => ?_, ?_⟩
  · rw [smaF_upto (z := finF a) p fun l hl => h1 l (by omega), smaF_fin hp]
  · rw [smaF_upto (z := finF a') p fun l hl => h2 l (by omega), smaF_fin hp]
  · rw [psum_same fun l hl => hm.same l (by omega), psum_same fun l hl => hm.same l (by omega)]
  · rw [hm.psum, psum_same (k := n + 1 - p) fun l hl => hm.same l (by omega)]; ring

end Verif.Props
