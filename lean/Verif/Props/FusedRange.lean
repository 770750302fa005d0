import Verif.Props.Fused
import Verif.Props.F64Lines
import Verif.Props.F64Math

/-!
# Guarantees that survive fused multiply-add (C122)

The lines of this file do depend on what the compiler fuses. Their guarantees do not.
-/

set_option linter.unusedSectionVars false

namespace Verif.Props
open Verif Verif.Klines Verif.Ta Verif.Ind GoFloat

variable {c : Choice}

/-! ## Series -/

/-- A number as data. -/
def asInput (x : B64) : Fused c := .of x (.input 1)

/-- A candle as data. -/
def asInputs (k : Candle B64) : Candle (Fused c) :=
  ⟨asInput k.amount, k.count, asInput k.open_, asInput k.close, asInput k.low, asInput k.high, asInput k.volume,
    asInput k.changePercent, k.isBull, k.timeUnix⟩

theorem sameCandle_asInputs (k : Candle B64) : SameCandle (asInputs k : Candle (Fused c)) k := by
  constructor <;> first | exact ⟨rfl, rfl⟩ | rfl

/-- A series as data of a program whose sums are fused by `c`. -/
def fusedItem (c : Choice) (it : Item B64) : Item (Fused c) :=
  { exchange := it.exchange, interval := it.interval, symbol := it.symbol, code := it.code,
    candles := it.candles.map asInputs }

theorem sameItem_fused (c : Choice) (it : Item B64) : SameItem (fusedItem c it) it := by
  show List.Forall₂ SameCandle (it.candles.map asInputs) it.candles
  induction it.candles with
  | nil => exact .nil
  | cons k l ih => exact .cons (sameCandle_asInputs k) ih

theorem SameItem.cols {u : Item (Fused c)} {v : Item B64} (huv : SameItem u v) {bs : List (Bar ℚ)} (h : Holds64 v bs) :
    ∃ x y b, u.candles = tab bs.length x ∧ v.candles = tab bs.length y ∧ bs = tab bs.length b ∧
      (∀ i, SameCandle (x i) (y i)) ∧ Cols64 y b ∧ ∀ i, bs.length ≤ i → b i = ⟨0, 0, 0, 0, 0⟩ := by
  obtain ⟨n, x, y, hx, hy, hxy⟩ := huv.tabs
  obtain ⟨z, b, hz, hb, hc, hb0⟩ := h.cols
  have hn : n = bs.length := by
    have h1 := congrArg List.length hy
    have h2 := congrArg List.length hz
    simp only [tab_length] at h1 h2
    omega
  subst hn
  have e : ∀ i < bs.length, y i = z i := by
    intro i hi
    have := congrArg (fun l => l[i]?) (hy.symm.trans hz)
    simp only [tab_getElem?_lt hi] at this
    exact Option.some.inj this
  refine ⟨fun i => if i < bs.length then x i else asInputs (z i), z, b, ?_, hz, hb, fun i => ?_, hc, hb0⟩
  · rw [hx]; exact tab_ext fun i hi => by simp [hi]
  · dsimp only
    split
    · next hi => rw [← e i hi]; exact hxy i
    · exact sameCandle_asInputs _

/-- The record at one index, from the closed form. -/
theorem atTab {F : Type} [GoFloat F] {I : Indicator F} {ok} {G} (hy : Yields I ok G) {it : Item F} {n : Nat}
    {x : Nat → Candle F} (hx : it.candles = tab n x) {d : List I.D}
    (hd : I.data it = .ok d) {i : Nat} {r : I.D} (hr : d[i]? = some r) : i < n ∧ r = G x i := by
  obtain ⟨hok, rfl⟩ := yields_inv hy hx hd
  have hi : i < n := by simpa using (List.getElem?_eq_some_iff.mp hr).1
  rw [tab_getElem?_lt hi] at hr
  exact ⟨hi, (Option.some.inj hr).symm⟩

/-! ## Bounds -/

/-- A finite number within the bounds; if it is a product, the exact product is within them too. -/
def Inside (l h : ℚ) (x : Fused c) : Prop :=
  (∃ q, x.num.val = .fin q ∧ l ≤ q ∧ q ≤ h) ∧
    ∀ a b, x.factors = some (a, b) → ∃ u v, a.val = .fin u ∧ b.val = .fin v ∧ l ≤ u * v ∧ u * v ≤ h

section within
variable {x y : Fused c} {l h l' h' a b : ℚ}

theorem Inside.of_num (hx : x.num.val = .fin a) (hf : x.factors = none) (h1 : l ≤ a) (h2 : a ≤ h) : Inside l h x :=
  ⟨⟨a, hx, h1, h2⟩, fun u v e => by rw [hf] at e; cases e⟩

theorem Inside.mono (hx : Inside l h x) (h1 : l' ≤ l) (h2 : h ≤ h') : Inside l' h' x := by
  obtain ⟨⟨q, hq, q1, q2⟩, hf⟩ := hx
  refine ⟨⟨q, hq, h1.trans q1, q2.trans h2⟩, fun u v e => ?_⟩
  obtain ⟨s, t, hs, ht, h3, h4⟩ := hf u v e
  exact ⟨s, t, hs, ht, h1.trans h3, h4.trans h2⟩

theorem Inside.add (hx : Inside l h x) (hy : Inside l' h' y) (h1 : SRep (l + l')) (h2 : SRep (h + h')) :
    Inside (l + l') (h + h') (x +. y) := by
  obtain ⟨⟨a, ha, a1, a2⟩, fx⟩ := hx
  obtain ⟨⟨b, hb, b1, b2⟩, fy⟩ := hy
  refine ⟨?_, fun u v e => by cases e⟩
  rcases Fused.add_cases x y with e | ⟨u, v, e1, e2⟩ | ⟨u, v, e1, e2⟩
  · rw [e]; exact add64 ha hb h1 h2 (by linarith) (by linarith)
  · obtain ⟨s, t, hs, ht, h3, h4⟩ := fx u v e1
    rw [e2, B64.val_fma hs ht hb]
    exact round64_between h1 h2 (by linarith) (by linarith)
  · obtain ⟨s, t, hs, ht, h3, h4⟩ := fy u v e1
    rw [e2, B64.val_fma hs ht ha]
    exact round64_between h1 h2 (by linarith) (by linarith)

theorem Inside.neg (hx : Inside l h x) : Inside (-h) (-l) x.minus := by
  obtain ⟨⟨q, hq, q1, q2⟩, hf⟩ := hx
  refine ⟨⟨-q, B64.val_neg hq, by linarith, by linarith⟩, fun u v e => ?_⟩
  unfold Fused.minus at e
  cases hx : x.factors with
  | none => simp [hx] at e
  | some f =>
    simp only [hx, Option.map_some, Option.some.injEq, Prod.mk.injEq] at e
    obtain ⟨rfl, rfl⟩ := e
    obtain ⟨s, t, hs, ht, h3, h4⟩ := hf _ _ hx
    exact ⟨-s, t, B64.val_neg hs, ht, by linarith, by linarith⟩

theorem Inside.sub (hx : Inside l h x) (hy : Inside l' h' y) (h1 : SRep (l - h')) (h2 : SRep (h - l')) :
    Inside (l - h') (h - l') (x -. y) := by
  have := hx.add hy.neg (by rwa [← sub_eq_add_neg]) (by rwa [← sub_eq_add_neg])
  rw [← sub_eq_add_neg, ← sub_eq_add_neg] at this
  exact ⟨this.1, fun u v e => by cases e⟩

theorem Inside.mul (hx : x.num.val = .fin a) (hy : y.num.val = .fin b) (hl : SRep l) (hh : SRep h) (h1 : l ≤ a * b)
    (h2 : a * b ≤ h) : Inside l h (x *. y) := by
  refine ⟨mul64 hx hy hl hh h1 h2, fun u v e => ?_⟩
  have e' : some (x.num, y.num) = some (u, v) := e
  rw [Option.some.injEq, Prod.mk.injEq] at e'
  exact ⟨a, b, e'.1 ▸ hx, e'.2 ▸ hy, h1, h2⟩

theorem Inside.div (hx : x.num.val = .fin a) (hy : y.num.val = .fin b) (hb : b ≠ 0) (hl : SRep l) (hh : SRep h)
    (h1 : l ≤ a / b) (h2 : a / b ≤ h) : Inside l h (x /. y) :=
  ⟨div64 hx hy hb hl hh h1 h2, fun u v e => by cases e⟩

end within

theorem val_flF {n : ℤ} (h : |n| ≤ 2 ^ 53) : (fl n : Fused c).num.val = .fin n := B64.val_fl n h

/-! ## Exponential averages -/

theorem emaF_within {p : Nat} (hp : 1 ≤ p) (hp' : p < 2 ^ 53) {e : ℤ} (he : -1074 ≤ e) (he' : e ≤ 970) {lo hi : ℤ}
    (hlo : (p + 1) * |lo| ≤ 2 ^ 53) (hhi : (p + 1) * |hi| ≤ 2 ^ 53) {x : Nat → Fused c} (n : Nat)
    (h : ∀ j ≤ n, Inside (lo * 2 ^ e) (hi * 2 ^ e) (x j)) : Inside (lo * 2 ^ e) (hi * 2 ^ e) (emaF p x n) := by
  have rep : ∀ {b : ℤ}, (p + 1) * |b| ≤ 2 ^ 53 → ∀ c : ℤ, 0 ≤ c → c ≤ p + 1 → SRep (c * (b * 2 ^ e)) := by
    intro b hb c hc hc'
    rw [← mul_assoc, ← Int.cast_mul]
    refine srep_scaled ?_ he he'
    rw [abs_mul, abs_of_nonneg hc]
    exact (mul_le_mul_of_nonneg_right hc' (abs_nonneg b)).trans hb
  induction n with
  | zero => exact h 0 le_rfl
  | succ n ih =>
    obtain ⟨⟨s, hs, s0, s1⟩, -⟩ := ih fun j hj => h j (by omega)
    obtain ⟨⟨a, ha, a0, a1⟩, -⟩ := h (n + 1) le_rfl
    have hp1 : (1 : ℚ) ≤ p := by exact_mod_cast hp
    set L : ℚ := lo * 2 ^ e
    set H : ℚ := hi * 2 ^ e
    have h1 : Inside ((2 : ℤ) * L) ((2 : ℤ) * H) (fl 2 *. x (n + 1)) :=
      Inside.mul (val_flF (by norm_num)) ha (rep hlo 2 (by norm_num) (by omega)) (rep hhi 2 (by norm_num) (by omega))
        (by push_cast; linarith) (by push_cast; linarith)
    have h2 : Inside (((p : ℤ) - 1 : ℤ) * L) (((p : ℤ) - 1 : ℤ) * H) (fl ((p : Int) - 1) *. emaF p x n) :=
      Inside.mul (val_flF (by rw [abs_of_nonneg (by omega)]; omega)) hs (rep hlo _ (by omega) (by omega))
        (rep hhi _ (by omega) (by omega)) (mul_le_mul_of_nonneg_left s0 (by push_cast; linarith))
        (mul_le_mul_of_nonneg_left s1 (by push_cast; linarith))
    have e1 : ∀ T : ℚ, (2 : ℤ) * T + ((p : ℤ) - 1 : ℤ) * T = ((p : ℤ) + 1 : ℤ) * T := fun T => by push_cast; ring
    have h3 := h1.add h2 (by rw [e1]; exact rep hlo _ (by omega) (by omega)) (by rw [e1]; exact rep hhi _ (by omega) (by omega))
    rw [e1, e1] at h3
    obtain ⟨⟨t, ht, t0, t1⟩, -⟩ := h3
    have hpos : (0 : ℚ) < ((p : ℤ) + 1 : ℤ) := by push_cast; linarith
    refine Inside.div (b := (((p : ℤ) + 1 : ℤ) : ℚ)) ht (val_flF (by rw [abs_of_nonneg (by omega)]; omega)) hpos.ne' ?_ ?_ ?_ ?_
    · simpa using rep hlo 1 (by norm_num) (by omega)
    · simpa using rep hhi 1 (by norm_num) (by omega)
    · rw [le_div_iff₀ hpos]; linarith
    · rw [div_le_iff₀ hpos]; linarith

/-- **C122 (Ema).** Whatever the compiler fuses, the exponential average stays inside every interval `[lo 2^e, hi 2^e]`
that contains the closes, provided `(p + 1) |lo|` and `(p + 1) |hi|` fit in 53 bits. -/
theorem C122_ema {p : Nat} (hp : 1 ≤ p) (hp' : p < 2 ^ 53) {e : ℤ} (he : -1074 ≤ e) (he' : e ≤ 970) {lo hi : ℤ}
    (hlo : (p + 1) * |lo| ≤ 2 ^ 53) (hhi : (p + 1) * |hi| ≤ 2 ^ 53) {u : Item (Fused c)} {v : Item B64}
    (huv : SameItem u v) {bs : List (Bar ℚ)} (hb : Holds64 v bs) (hw : ∀ b ∈ bs, lo * 2 ^ e ≤ b.c ∧ b.c ≤ hi * 2 ^ e)
    {d : List (Rec (Fused c))} (hd : (EMA p).data u = .ok d) {r : Rec (Fused c)} (hr : r ∈ d) :
    ∃ s, r.value.num.val = .fin s ∧ lo * 2 ^ e ≤ s ∧ s ≤ hi * 2 ^ e := by
  obtain ⟨i, hr⟩ := List.mem_iff_getElem?.mp hr
  obtain ⟨x, y, b, hx, -, hbs, hxy, hc, -⟩ := huv.cols hb
  obtain ⟨hi, rfl⟩ := atTab (EMA.makes p).yields hx hd hr
  refine (emaF_within hp hp' he he' hlo hhi i fun j hj => ?_).1
  have := hw (b j) (by rw [hbs]; exact mem_tab.mpr ⟨j, by omega, rfl⟩)
  exact Inside.of_num ((congrArg B64.val (hxy j).c.1).trans (hc.cl j)) (hxy j).c.2 this.1 this.2

/-! ## Relative strength -/

section rsi
variable {x y : Fused c} {m n : ℤ}

/-- A number that is not negative and at most `n` times `2^900`, exactly and rounded. -/
abbrev UpF (n : ℤ) (x : Fused c) : Prop := Inside 0 (n * cap) x

theorem UpF.zero (h : 0 ≤ n) : UpF n (fl 0 : Fused c) :=
  Inside.of_num val_zero64 rfl le_rfl (mul_nonneg (by exact_mod_cast h) cap_pos.le)

theorem UpF.grow (hx : UpF m x) (h : m ≤ n) : UpF n x :=
  hx.mono le_rfl (mul_le_mul_of_nonneg_right (by exact_mod_cast h) cap_pos.le)

theorem UpF.sum (hx : UpF m x) (hy : UpF n y) (h : |m + n| ≤ 2 ^ 53) : UpF (m + n) (x +. y) := by
  have e : (m : ℚ) * cap + n * cap = ((m + n : ℤ) : ℚ) * cap := by push_cast; ring
  have := hx.add hy (by rw [add_zero]; exact srep_zero) (by rw [e]; exact srep_cap h)
  rwa [add_zero, e] at this

theorem UpF.times (hx : UpF m x) (h0 : 0 ≤ n) (hn : |n| ≤ 2 ^ 53) (h : |m * n| ≤ 2 ^ 53) : UpF (m * n) (x *. fl n) := by
  obtain ⟨⟨a, ha, a0, a1⟩, -⟩ := hx
  have h0' : (0 : ℚ) ≤ n := by exact_mod_cast h0
  refine Inside.mul ha (val_flF hn) srep_zero (srep_cap h) (mul_nonneg a0 h0') ?_
  push_cast
  calc a * n ≤ m * cap * n := mul_le_mul_of_nonneg_right a1 h0'
    _ = m * n * cap := by ring

theorem UpF.over (hx : UpF (m * n) x) (h0 : 0 < n) (hn : |n| ≤ 2 ^ 53) (h : |m| ≤ 2 ^ 53) : UpF m (x /. fl n) := by
  obtain ⟨⟨a, ha, a0, a1⟩, -⟩ := hx
  have h0' : (0 : ℚ) < n := by exact_mod_cast h0
  refine Inside.div ha (val_flF hn) h0'.ne' srep_zero (srep_cap h) (div_nonneg a0 h0'.le) ?_
  rw [div_le_iff₀ h0']
  push_cast at a1
  linarith

theorem UpF.num (hx : UpF m x) : UpTo m x.num := hx.1

end rsi

theorem rsiStep_up {m : ℤ} {gl : Fused c × Fused c} {y z : Fused c} {a b : ℚ} (hm : 0 ≤ m) (hm' : m < 2 ^ 53)
    (hg : UpF m gl.1) (hl : UpF m gl.2) (hy : y.num.val = .fin a) (fy : y.factors = none) (hz : z.num.val = .fin b)
    (fz : z.factors = none) (ha : 0 ≤ a ∧ a ≤ cap) (hb : 0 ≤ b ∧ b ≤ cap) :
    UpF (m + 1) (rsiStep gl (y -. z)).1 ∧ UpF (m + 1) (rsiStep gl (y -. z)).2 := by
  have hc : SRep cap := by simpa using srep_cap (n := 1) (by norm_num)
  have h1 : |m + 1| ≤ 2 ^ 53 := by rw [abs_of_nonneg (by omega)]; omega
  have hd := (Inside.of_num hy fy ha.1 ha.2).sub (Inside.of_num hz fz hb.1 hb.2) (by rw [zero_sub]; exact hc.neg)
    (by rw [sub_zero]; exact hc)
  obtain ⟨⟨d, hd, d0, d1⟩, -⟩ := hd
  have e : (m : ℚ) * cap + cap = ((m + 1 : ℤ) : ℚ) * cap := by push_cast; ring
  have hlt : ((y -. z) <. (fl 0 : Fused c)) = decide (d < 0) := B64.lt_val hd val_zero64
  rw [rsiStep, hlt]
  by_cases h : d < 0
  · simp only [h, decide_true, if_true]
    refine ⟨hg.grow (by omega), ?_⟩
    have := hl.sub (Inside.of_num (l := -cap) (h := 0) hd rfl (by linarith) h.le) (by rw [sub_zero]; exact srep_zero)
      (by rw [sub_neg_eq_add, e]; exact srep_cap h1)
    rwa [sub_zero, sub_neg_eq_add, e] at this
  · simp only [h, decide_false, Bool.false_eq_true, if_false]
    refine ⟨?_, hl.grow (by omega)⟩
    have := hg.add (Inside.of_num (l := 0) (h := cap) hd rfl (not_lt.mp h) (by linarith)) (by rw [add_zero]; exact srep_zero)
      (by rw [e]; exact srep_cap h1)
    rwa [add_zero, e] at this

theorem rsiW_up {p : Nat} (hp : 2 ≤ p) (hp' : p ≤ 2 ^ 53) {x : Nat → Fused c} {a : Nat → ℚ} (m : Nat)
    (h : ∀ j, (x j).num.val = .fin (a j)) (hf : ∀ j, (x j).factors = none) (hb : ∀ j, 0 ≤ a j ∧ a j ≤ cap) :
    UpF 1 (rsiW p x m).1 ∧ UpF 1 (rsiW p x m).2 := by
  have hpa : |(p : ℤ)| ≤ 2 ^ 53 := by rw [abs_of_nonneg (by omega)]; exact_mod_cast hp'
  induction m with
  | zero =>
    have : ∀ k : Nat, k ≤ p → UpF k (rsiInit x k).1 ∧ UpF k (rsiInit x k).2 := by
      intro k hk
      induction k with
      | zero => exact ⟨UpF.zero le_rfl, UpF.zero le_rfl⟩
      | succ k ih =>
        have := ih (by omega)
        rw [rsiInit, Nat.cast_succ]
        exact rsiStep_up (by omega) (by omega) this.1 this.2 (h _) (hf _) (h _) (hf _) (hb _) (hb _)
    have := this p le_rfl
    rw [rsiW]
    exact ⟨UpF.over (by rw [one_mul]; exact this.1) (by omega) hpa (by norm_num),
      UpF.over (by rw [one_mul]; exact this.2) (by omega) hpa (by norm_num)⟩
  | succ m ih =>
    have hq : |(p : ℤ) - 1| ≤ 2 ^ 53 := by rw [abs_of_nonneg (by omega)]; omega
    have g1 := UpF.times ih.1 (n := (p : ℤ) - 1) (by omega) hq (by rwa [one_mul])
    have g2 := UpF.times ih.2 (n := (p : ℤ) - 1) (by omega) hq (by rwa [one_mul])
    rw [one_mul] at g1 g2
    have := rsiStep_up (gl := ((rsiW p x m).1 *. fl ((p : Int) - 1), (rsiW p x m).2 *. fl ((p : Int) - 1)))
      (by omega) (by omega) g1 g2 (h (p + m + 1)) (hf _) (h (p + m)) (hf _) (hb _) (hb _)
    rw [sub_add_cancel] at this
    rw [rsiW]
    exact ⟨UpF.over (by rw [one_mul]; exact this.1) (by omega) hpa (by norm_num),
      UpF.over (by rw [one_mul]; exact this.2) (by omega) hpa (by norm_num)⟩

theorem rsiW_inert (p : Nat) (x : Nat → Fused c) (m : Nat) :
    (rsiW p x m).1.factors = none ∧ (rsiW p x m).2.factors = none := by
  cases m <;> exact ⟨rfl, rfl⟩

theorem rsiVal_num {gl : Fused c × Fused c} (h1 : gl.1.factors = none) (h2 : gl.2.factors = none) :
    (rsiVal gl).num = rsiVal (gl.1.num, gl.2.num) := by
  have e : (gl.1 +. gl.2).num = gl.1.num +. gl.2.num := (is_add (Reads.is ⟨rfl, h1⟩) (Reads.is ⟨rfl, h2⟩)).1
  have e1 : (lit (-1 / 100000000000000) <. (gl.1 +. gl.2)) = (lit (-1 / 100000000000000) <. (gl.1.num +. gl.2.num)) := by
    rw [← e]; rfl
  have e2 : ((gl.1 +. gl.2) <. lit (1 / 100000000000000)) = ((gl.1.num +. gl.2.num) <. lit (1 / 100000000000000)) := by
    rw [← e]; rfl
  rw [rsiVal, rsiVal]
  dsimp only
  rw [e1, e2]
  split
  · exact mul_num rfl (is_div rfl e).1
  · rfl

/-- **C122 (Rsi).** Whatever the compiler fuses, every RSI value is a finite number between 0 and 100, for every period up
to `2^53` and closes from 0 to `2^900`. -/
theorem C122_rsi {p : Nat} (hp : p ≤ 2 ^ 53) {u : Item (Fused c)} {v : Item B64} (huv : SameItem u v) {bs : List (Bar ℚ)}
    (hb : Holds64 v bs) (hw : ∀ b ∈ bs, 0 ≤ b.c ∧ b.c ≤ 2 ^ 900) {d : List (Rec (Fused c))}
    (hd : (RSI p).data u = .ok d) {r : Rec (Fused c)} (hr : r ∈ d) :
    ∃ s, r.value.num.val = .fin s ∧ 0 ≤ s ∧ s ≤ 100 := by
  obtain ⟨i, hr⟩ := List.mem_iff_getElem?.mp hr
  obtain ⟨x, y, b, hx, -, hbs, hxy, hc, hb0⟩ := huv.cols hb
  obtain ⟨hi, rfl⟩ := atTab (RSI.appends p).yields hx hd hr
  have hw' : ∀ j, 0 ≤ (b j).c ∧ (b j).c ≤ cap := by
    intro j
    by_cases hj : j < bs.length
    · have := hw _ (by rw [hbs]; exact mem_tab.mpr ⟨j, hj, rfl⟩)
      exact ⟨this.1, this.2.trans_eq (zpow_natCast 2 900).symm⟩
    · rw [hb0 j (by omega)]
      exact ⟨le_rfl, cap_pos.le⟩
  show Pct (rsiF (p : Int).toNat (Ind.cl x) i).num
  rw [rsiF, Int.toNat_natCast]
  split
  · exact pct_fl (by norm_num)
  · have := rsiW_up (p := p) (by omega) hp (i - p) (fun j => (congrArg B64.val (hxy j).c.1).trans (hc.cl j))
      (fun j => (hxy j).c.2) hw'
    have hn := rsiW_inert p (Ind.cl x) (i - p)
    rw [rsiVal_num hn.1 hn.2]
    exact rsiVal64 this.1.num this.2.num

/-! ## KDJ -/

theorem kdj_low {x : Nat → Fused c} {y : Nat → B64} (h : ∀ j, Is (x j) (y j)) (l m : Nat) :
    Is (lowF x l m) (lowF y l m) := by
  induction m with
  | zero => exact h l
  | succ m ih =>
    rw [lowF, lowF]
    have e : (x (l + (m + 1)) <. lowF x l m) = (y (l + (m + 1)) <. lowF y l m) := by
      rw [← (h (l + (m + 1))).1, ← ih.1]; rfl
    rw [e]
    split
    · exact h _
    · exact ih

theorem kdj_high {x : Nat → Fused c} {y : Nat → B64} (h : ∀ j, Is (x j) (y j)) (l m : Nat) :
    Is (highF x l m) (highF y l m) := by
  induction m with
  | zero => exact h l
  | succ m ih =>
    rw [highF, highF]
    have e : (x (l + (m + 1)) >. highF x l m) = (y (l + (m + 1)) >. highF y l m) := by
      rw [← (h (l + (m + 1))).1, ← ih.1]; rfl
    rw [e]
    split
    · exact h _
    · exact ih

theorem rsv_num {x : Nat → Candle (Fused c)} {y : Nat → Candle B64} (h : ∀ i, SameCandle (x i) (y i)) (p : Int) (i : Nat) :
    (rsvF p x i).num = rsvF p y i := by
  have hl := kdj_low (is_lo h) (i + 1 - p.toNat) (p.toNat - 1)
  have hh := kdj_high (is_hi h) (i + 1 - p.toNat) (p.toNat - 1)
  have hd := is_sub hh hl
  rw [rsvF, rsvF]
  split
  · dsimp only
    have e : ((highF (Ind.hi x) (i + 1 - p.toNat) (p.toNat - 1) -. lowF (Ind.lo x) (i + 1 - p.toNat) (p.toNat - 1)) <.
        lit (1 / 1000000)) = ((highF (Ind.hi y) (i + 1 - p.toNat) (p.toNat - 1) -.
          lowF (Ind.lo y) (i + 1 - p.toNat) (p.toNat - 1)) <. lit (1 / 1000000)) := by
      rw [← hd.1]; rfl
    rw [e]
    split
    · rfl
    · exact mul_num (is_div (is_sub (is_cl h i) hl).1 hd.1).1 rfl
  · rfl

theorem kdjStep_pct {k r : Fused c} (hk : Pct k.num) (hr : Pct r.num) : Pct (twoThirds *. k +. oneThird *. r).num := by
  rcases Fused.add_cases (twoThirds *. k) (oneThird *. r) with e | ⟨u, v, e1, e2⟩ | ⟨u, v, e1, e2⟩
  · rw [e]; exact kdjStep64 hk hr
  · have e1' : some ((twoThirds : B64), k.num) = some (u, v) := e1
    rw [Option.some.injEq, Prod.mk.injEq] at e1'
    obtain ⟨k0, hk, k0', k1⟩ := hk
    obtain ⟨r0, hr, r0', r1⟩ := hr
    have ht : (twoThirds : B64).val = .fin (6004799503160661 / 2 ^ 53) :=
      (B64.val_lit _).trans (by decide +kernel)
    have ho : (oneThird : B64).val = .fin (6004799503160661 / 2 ^ 54) :=
      (B64.val_lit _).trans (by decide +kernel)
    have eB : round64 (6004799503160661 / 2 ^ 54 * 100) = .fin (4691249611844266 / 2 ^ 47) := by decide +kernel
    obtain ⟨w, hw, w0, -⟩ := round64_between (q := 6004799503160661 / 2 ^ 54 * r0) srep_zero srep_hundred (by positivity)
      (by linarith)
    have wB := round64_mono hw eB (by linarith)
    have hz : (oneThird *. r : Fused c).num.val = .fin w := (B64.val_mul ho hr).trans hw
    rw [e2, ← e1'.1, ← e1'.2, Pct, B64.val_fma ht hk hz]
    exact round64_between srep_zero srep_hundred (by positivity) (by linarith)
  · have e1' : some ((oneThird : B64), r.num) = some (u, v) := e1
    rw [Option.some.injEq, Prod.mk.injEq] at e1'
    obtain ⟨k0, hk, k0', k1⟩ := hk
    obtain ⟨r0, hr, r0', r1⟩ := hr
    have ht : (twoThirds : B64).val = .fin (6004799503160661 / 2 ^ 53) :=
      (B64.val_lit _).trans (by decide +kernel)
    have ho : (oneThird : B64).val = .fin (6004799503160661 / 2 ^ 54) :=
      (B64.val_lit _).trans (by decide +kernel)
    have eA : round64 (6004799503160661 / 2 ^ 53 * 100) = .fin (4691249611844266 / 2 ^ 46) := by decide +kernel
    obtain ⟨w, hw, w0, -⟩ := round64_between (q := 6004799503160661 / 2 ^ 53 * k0) srep_zero srep_hundred (by positivity)
      (by linarith)
    have wA := round64_mono hw eA (by linarith)
    have hz : (twoThirds *. k : Fused c).num.val = .fin w := (B64.val_mul ht hk).trans hw
    rw [e2, ← e1'.1, ← e1'.2, Pct, B64.val_fma ho hr hz]
    exact round64_between srep_zero srep_hundred (by positivity) (by linarith)

/-- **C122 (Kdj).** Whatever the compiler fuses, RSV, K and D are finite numbers between 0 and 100 and J is between -200
and 300. -/
theorem C122_kdj {p : Nat} {u : Item (Fused c)} {v : Item B64} (huv : SameItem u v) {bs : List (Bar ℚ)} (hb : Holds64 v bs)
    (hw : ∀ b ∈ bs, 0 ≤ b.l ∧ b.l ≤ b.c ∧ b.c ≤ b.h) {ds : List (KDJ.Data (Fused c))} (hd : (KDJ p).data u = .ok ds)
    {q : KDJ.Data (Fused c)} (hq : q ∈ ds) :
    ∃ r k d j, q.rsv.num.val = .fin r ∧ q.k.num.val = .fin k ∧ q.d.num.val = .fin d ∧ q.j.num.val = .fin j ∧
      (0 ≤ r ∧ r ≤ 100) ∧ (0 ≤ k ∧ k ≤ 100) ∧ (0 ≤ d ∧ d ≤ 100) ∧ -200 ≤ j ∧ j ≤ 300 := by
  obtain ⟨i, hr⟩ := List.mem_iff_getElem?.mp hq
  obtain ⟨x, y, b, hx, -, hbs, hxy, hc, -⟩ := huv.cols hb
  obtain ⟨hi, rfl⟩ := atTab (KDJ.makes p).yields hx hd hr
  have hw' : ∀ j ≤ i, 0 ≤ (b j).l ∧ (b j).l ≤ (b j).c ∧ (b j).c ≤ (b j).h := fun j hj =>
    hw _ (by rw [hbs]; exact mem_tab.mpr ⟨j, by omega, rfl⟩)
  have hR : ∀ m ≤ i, Pct (rsvF p x m).num := fun m hm => by
    rw [rsv_num hxy]; exact rsv64 hc m fun j hj => hw' j (by omega)
  have hK : ∀ m ≤ i, Pct (kF p x m).num := by
    intro m hm
    induction m with
    | zero => exact pct_fl (by norm_num)
    | succ m ih =>
      rw [kF]
      split
      · exact kdjStep_pct (ih (by omega)) (hR _ hm)
      · exact pct_fl (by norm_num)
  have hD : ∀ m ≤ i, Pct (dF p x m).num := by
    intro m hm
    induction m with
    | zero => exact pct_fl (by norm_num)
    | succ m ih =>
      rw [dF]
      split
      · exact kdjStep_pct (ih (by omega)) (hK _ hm)
      · exact pct_fl (by norm_num)
  obtain ⟨r, hr, r0, r1⟩ := hR i le_rfl
  obtain ⟨k, hk, k0, k1⟩ := hK i le_rfl
  obtain ⟨d, hd, d0, d1⟩ := hD i le_rfl
  have s : ∀ n : ℤ, |n| ≤ 2 ^ 53 → SRep (n : ℚ) := fun n hn => by
    simpa using srep_scaled (n := n) (e := 0) hn (by norm_num) (by norm_num)
  have h3 : Inside (0 : ℤ) (300 : ℤ) (fl 3 *. kF p x i) := Inside.mul (val_flF (by norm_num)) hk (s 0 (by norm_num))
    (s 300 (by norm_num)) (by push_cast; positivity) (by push_cast; linarith)
  have h2 : Inside (0 : ℤ) (200 : ℤ) (fl 2 *. dF p x i) := Inside.mul (val_flF (by norm_num)) hd (s 0 (by norm_num))
    (s 200 (by norm_num)) (by push_cast; positivity) (by push_cast; linarith)
  obtain ⟨⟨j, hj, j0, j1⟩, -⟩ := h3.sub h2 (by rw [← Int.cast_sub]; exact s _ (by norm_num))
    (by rw [← Int.cast_sub]; exact s _ (by norm_num))
  push_cast at j0 j1
  exact ⟨r, k, d, j, hr, hk, hd, hj, ⟨r0, r1⟩, ⟨k0, k1⟩, ⟨d0, d1⟩, by linarith, by linarith⟩

/-! ## Ranges and bands -/

theorem rmaF_up {p : Nat} (hp : 1 ≤ p) (hp' : p ≤ 2 ^ 53) {x : Nat → Fused c} (h : ∀ j, UpF 1 (x j)) (i : Nat) :
    UpF 1 (rmaF p x i) := by
  suffices UpF 1 (rmaS p x i).2 ∧ (i < p → UpF i (rmaS p x i).1) from this.1
  induction i with
  | zero => exact ⟨UpF.zero (by norm_num), fun _ => UpF.zero le_rfl⟩
  | succ k ih =>
    rw [rmaS]
    split
    · next hk =>
      have hs := (ih.2 (by omega)).sum (h (k + 1)) (by rw [abs_of_nonneg (by omega)]; omega)
      refine ⟨UpF.over (hs.grow (by omega)) (by omega) (by rw [abs_of_nonneg (by omega)]; omega) (by norm_num),
        fun _ => by rw [Nat.cast_succ]; exact hs⟩
    · next hk =>
      have h1 := ih.1.times (n := (p : ℤ) - 1) (by omega) (by rw [abs_of_nonneg (by omega)]; omega)
        (by rw [one_mul, abs_of_nonneg (by omega)]; omega)
      have h2 := h1.sum (h (k + 1)) (by rw [one_mul, abs_of_nonneg (by omega)]; omega)
      refine ⟨UpF.over (h2.grow (by omega)) (by omega) (by rw [abs_of_nonneg (by omega)]; omega) (by norm_num),
        fun hk' => absurd (by exact_mod_cast hk') hk⟩

theorem trI_up {x : Nat → Candle (Fused c)} {y : Nat → Candle B64} (h : ∀ i, SameCandle (x i) (y i)) {b : Nat → Bar ℚ}
    (hc : Cols64 y b) (hw : ∀ j, 0 ≤ (b j).l ∧ (b j).l ≤ (b j).c ∧ (b j).c ≤ (b j).h ∧ (b j).h ≤ cap) (i : Nat) :
    UpF 1 (trI x i) := by
  refine ⟨?_, fun u v e => by cases e⟩
  rw [(is_trI h i).1]
  exact trI64 hc hw i

/-- **C122 (ATR).** Whatever the compiler fuses, true range and average true range are finite numbers from 0 to `2^900`. -/
theorem C122_atr {p : Nat} (hp : 1 ≤ p) (hp' : p ≤ 2 ^ 53) {u : Item (Fused c)} {v : Item B64} (huv : SameItem u v)
    {bs : List (Bar ℚ)} (hb : Holds64 v bs) (hw : Sane64 bs) {d : List (ATR.Data (Fused c))} (hd : (ATR p).data u = .ok d)
    {r : ATR.Data (Fused c)} (hr : r ∈ d) :
    (∃ s, r.tr.num.val = .fin s ∧ 0 ≤ s ∧ s ≤ 2 ^ 900) ∧ ∃ s, r.atr.num.val = .fin s ∧ 0 ≤ s ∧ s ≤ 2 ^ 900 := by
  obtain ⟨i, hr⟩ := List.mem_iff_getElem?.mp hr
  obtain ⟨x, y, b, hx, -, hbs, hxy, hc, hb0⟩ := huv.cols hb
  obtain ⟨hi, rfl⟩ := atTab (ATR.makes p).yields hx hd hr
  have e : ((1 : ℤ) : ℚ) * cap = 2 ^ 900 := by rw [Int.cast_one, one_mul]; exact zpow_natCast 2 900
  have ht := trI_up hxy hc (hw.at hbs hb0)
  constructor
  · obtain ⟨s, hs, s0, s1⟩ := (ht i).1
    exact ⟨s, hs, s0, s1.trans_eq e⟩
  · obtain ⟨s, hs, s0, s1⟩ := (rmaF_up hp hp' ht i).1
    exact ⟨s, hs, s0, s1.trans_eq e⟩

theorem emaF_none {x : Nat → Fused c} (h : ∀ i, (x i).factors = none) (p : Int) (i : Nat) : (emaF p x i).factors = none := by
  cases i with
  | zero => exact h 0
  | succ i => rfl

/-- **C122 (Keltner channel).** Whatever the compiler fuses, the three lines are finite and in order. -/
theorem C122_keltner {p : Nat} (hp : 1 ≤ p) (hp' : p < 2 ^ 53) {u : Item (Fused c)} {v : Item B64} (huv : SameItem u v)
    {bs : List (Bar ℚ)} (hb : Holds64 v bs) (hw : Sane64 bs) {d : List (Band (Fused c))} (hd : (Keltner p).data u = .ok d)
    {r : Band (Fused c)} (hr : r ∈ d) :
    ∃ h m l, r.upper.num.val = .fin h ∧ r.middle.num.val = .fin m ∧ r.lower.num.val = .fin l ∧ l ≤ m ∧ m ≤ h ∧ 0 ≤ m := by
  obtain ⟨i, hr⟩ := List.mem_iff_getElem?.mp hr
  obtain ⟨x, y, b, hx, -, hbs, hxy, hc, hb0⟩ := huv.cols hb
  obtain ⟨hi, rfl⟩ := atTab (Keltner.appends p).yields hx hd hr
  have hw' := hw.at hbs hb0
  have e1 : ((1 : ℤ) : ℚ) * 2 ^ (900 : ℤ) = cap := by rw [Int.cast_one, one_mul]; rfl
  have hm := emaF_within (x := Ind.cl x) hp hp' (e := 900) (by norm_num) (by norm_num) (lo := 0) (hi := 1)
    (by norm_num) (by simp only [abs_one, mul_one]; omega) i fun j _ => by
      obtain ⟨w0, w1, w2, w3⟩ := hw' j
      rw [e1, Int.cast_zero, zero_mul]
      exact Inside.of_num ((congrArg B64.val (hxy j).c.1).trans (hc.cl j)) (hxy j).c.2 (w0.trans w1) (w2.trans w3)
  rw [e1, Int.cast_zero, zero_mul] at hm
  obtain ⟨⟨m, hm, m0, m1⟩, -⟩ := hm
  have hf := emaF_none (fun j => (hxy j).c.2) p i
  have ha := (rmaF_up hp hp'.le (trI_up hxy hc hw') i).times (n := 2) (by norm_num) (by norm_num) (by norm_num)
  have hc3 : SRep (((3 : ℤ) : ℚ) * cap) := srep_cap (by norm_num)
  have e2 : cap + ((1 * 2 : ℤ) : ℚ) * cap = ((3 : ℤ) : ℚ) * cap := by push_cast; ring
  have hU := (Inside.of_num (l := m) (h := cap) hm hf le_rfl m1).add ha (by rw [add_zero]; exact B64.val_srep hm)
    (by rw [e2]; exact hc3)
  rw [add_zero] at hU
  obtain ⟨⟨h, hh, h0, -⟩, -⟩ := hU
  obtain ⟨⟨a, ha, a0, a1⟩, -⟩ := ha
  have := cap_pos
  push_cast at a1
  obtain ⟨l, hl, -, l1⟩ := round64_between hc3.neg (B64.val_srep hm) (q := m - a) (by push_cast; linarith) (by linarith)
  refine ⟨h, m, l, hh, hm, ?_, l1, h0, m0⟩
  have e3 : (subF (emaF p (cl x) i) (rmaF p (trI x) i *. fl 2)).num = subF (emaF p (cl x) i).num (rmaF p (trI x) i *. fl 2).num :=
    (is_subF (Reads.is ⟨rfl, hf⟩) rfl).1
  exact (congrArg B64.val e3).trans ((val_subF hm ha).trans hl)

/-! ## Stops -/

theorem cmpLawsFused : CmpLaws (Fused c) :=
  ⟨fun a b h => cmpLaws64.asymm a.num b.num h, fun a b h => cmpLaws64.nan a.num b.num h,
    fun a b => cmpLaws64.max_ge a.num b.num, fun a b => cmpLaws64.min_le a.num b.num, cmpLaws64.zero⟩

/-- **C122 (UTBot).** Whatever the compiler fuses, while the close stays above the stop the stop is never lowered, and
while it stays below never raised. -/
theorem C122_utbot {p q : Int} {it : Item (Fused c)} {d : List (UT.Data (Fused c))} (hd : (UT p q).data it = .ok d) {i : Nat}
    {v w : UT.Data (Fused c)} {a b : Candle (Fused c)} (hv : d[i]? = some v) (hw : d[i + 1]? = some w)
    (ha : it.candles[i]? = some a) (hb : it.candles[i + 1]? = some b) :
    ((v.value <. a.close) = true → (v.value <. b.close) = true → (w.value <. v.value) = false) ∧
    ((a.close <. v.value) = true → (b.close <. v.value) = true → (v.value <. w.value) = false) :=
  utbot_holds cmpLawsFused hd hv hw ha hb

/-- **C122 (SuperTrend).** Whatever the compiler fuses, the lower line is not lowered after a close above it and the upper
line not raised after a close below it. -/
theorem C122_supertrend {p m : Int} {chg : Bool} {it : Item (Fused c)} {d : List (ST.Data (Fused c))}
    (hd : (ST p m chg).data it = .ok d) {i : Nat} {v w : ST.Data (Fused c)} {a : Candle (Fused c)} (hv : d[i]? = some v)
    (hw : d[i + 1]? = some w) (ha : it.candles[i]? = some a) :
    ((v.up <. a.close) = true → (w.up <. v.up) = false) ∧ ((a.close <. v.down) = true → (v.down <. w.down) = false) :=
  supertrend_holds cmpLawsFused hd hv hw ha

/-- **C122 (PivotPointSuperTrend).** Whatever the compiler fuses: while the line is shown on the same side at two
successive candles, a lower line is not lowered after a close above it and an upper line not raised after a close
below it. -/
theorem C122_pivot {p q : Int} {f : Fused c} {it : Item (Fused c)} {d : List (ST.Data (Fused c))}
    (hd : (PPST p q f).data it = .ok d) {i : Nat} {v w : ST.Data (Fused c)} {a : Candle (Fused c)} (hv : d[i]? = some v)
    (hw : d[i + 1]? = some w) (ha : it.candles[i]? = some a) :
    ((v.up ==. fl 0) = false → (w.up ==. fl 0) = false → (v.up <. a.close) = true → (w.up <. v.up) = false) ∧
    ((v.down ==. fl 0) = false → (w.down ==. fl 0) = false → (a.close <. v.down) = true →
      (v.down <. w.down) = false) :=
  pivot_holds cmpLawsFused hd hv hw ha

/-! ### The side of the stop -/

theorem round_le_self {a b : ℚ} (ha : SRep a) (hb : 0 ≤ b) : XF.lt (.fin a) (round64 (a - b)) = false := by
  rw [round64]
  have h2 := roundS_mono (show a - b ≤ a by linarith)
  rw [roundS_rep ha] at h2
  split_ifs with a1 a2
  · rw [xlt_fin, decide_eq_false_iff_not, not_lt]; exact h2
  · exact not_lt_ninf _
  · exfalso
    have h4 : 0 ≤ roundS (a - b) := by rw [roundS, if_neg a2]; exact roundMag_nonneg _
    rw [not_le, abs_of_nonneg h4] at a1
    have := (le_abs_self a).trans ha.2
    linarith

theorem round_ge_self {a b : ℚ} (ha : SRep a) (hb : 0 ≤ b) : XF.lt (round64 (a + b)) (.fin a) = false := by
  rw [round64]
  have h2 := roundS_mono (show a ≤ a + b by linarith)
  rw [roundS_rep ha] at h2
  split_ifs with a1 a2
  · rw [xlt_fin, decide_eq_false_iff_not, not_lt]; exact h2
  · exfalso
    have h3 := ha.2
    have h4 : roundS (a + b) ≤ 0 := by rw [roundS, if_pos a2]; linarith [roundMag_nonneg (-(a + b))]
    rw [not_le, abs_of_nonpos h4] at a1
    have := neg_abs_le a
    linarith
  · exact pinf_not_lt _

theorem mul_neg64 (a b : B64) : a.neg *. b = (a *. b).neg := by
  show B64.mul a.neg b = (B64.mul a b).neg
  cases a with
  | nan => cases b <;> rfl
  | inf s =>
    cases b with
    | nan => rfl
    | inf t => simp [B64.mul, B64.neg]
    | fin t q hq =>
      simp only [B64.mul, B64.neg]
      split <;> simp
  | fin s p hp =>
    cases b with
    | nan => rfl
    | inf t =>
      simp only [B64.mul, B64.neg]
      split <;> simp
    | fin t q hq =>
      simp only [B64.mul, B64.neg, B64.ofMag]
      split <;> simp

/-- A fused sum is the two roundings, or one of exact numbers, or the summand. -/
theorem fma_cases (a b z : B64) : B64.fma a b z = a *. b +. z ∨ B64.fma a b z = z ∨
    ∃ u v w, a.val = .fin u ∧ b.val = .fin v ∧ z.val = .fin w := by
  cases a with
  | nan => exact .inl rfl
  | inf s => exact .inl rfl
  | fin s p hp =>
    cases b with
    | nan => exact .inl rfl
    | inf t => exact .inl rfl
    | fin t q hq =>
      cases z with
      | nan => exact .inr (.inl rfl)
      | inf r => exact .inr (.inl rfl)
      | fin r w hw => exact .inr (.inr ⟨_, _, _, rfl, rfl, rfl⟩)

theorem nn_val {x : B64} (h : NN x) {a : ℚ} (ha : x.val = .fin a) : 0 ≤ a := by
  have h : XF.lt x.val (fl 0 : B64).val = false := h
  rw [ha, val_zero64, xlt_fin, decide_eq_false_iff_not, not_lt] at h
  exact h

theorem nn_fma {a b z : B64} (ha : NN a) (hb : NN b) (hz : NN z) : NN (B64.fma a b z) := by
  rcases fma_cases a b z with e | e | ⟨u, v, w, hu, hv, hw⟩
  · rw [e]; exact nn_add (nn_mul ha hb) hz
  · rw [e]; exact hz
  · exact nn_round (B64.val_fma hu hv hw) (add_nonneg (mul_nonneg (nn_val ha hu) (nn_val hb hv)) (nn_val hz hw))

theorem fma_le_self {a b z : B64} (ha : NN a) (hb : NN b) : (z <. B64.fma a.neg b z) = false := by
  rcases fma_cases a.neg b z with e | e | ⟨u, v, w, hu, hv, hw⟩
  · rw [e, mul_neg64, add_comm64]; exact sub_le_self64 z (nn_mul ha hb)
  · rw [e]; exact xlt_irrefl _
  · have hu' : a.val = .fin (-u) := by
      have := B64.val_neg hu
      rwa [neg_neg64] at this
    show XF.lt z.val (B64.fma a.neg b z).val = false
    rw [B64.val_fma hu hv hw, hw, show u * v + w = w - -u * v by ring]
    exact round_le_self (B64.val_srep hw) (mul_nonneg (nn_val ha hu') (nn_val hb hv))

theorem self_le_fma {a b z : B64} (ha : NN a) (hb : NN b) : (B64.fma a b z <. z) = false := by
  rcases fma_cases a b z with e | e | ⟨u, v, w, hu, hv, hw⟩
  · rw [e, add_comm64]; exact self_le_add64 z (nn_mul ha hb)
  · rw [e]; exact xlt_irrefl _
  · show XF.lt (B64.fma a b z).val z.val = false
    rw [B64.val_fma hu hv hw, hw, add_comm]
    exact round_ge_self (B64.val_srep hw) (mul_nonneg (nn_val ha hu) (nn_val hb hv))

/-- Not negative, and if it is a product, neither are its factors. -/
def NNF (x : Fused c) : Prop := NN x.num ∧ ∀ a b, x.factors = some (a, b) → NN a ∧ NN b

theorem NNF.of_num {x : Fused c} (h : NN x.num) (hf : x.factors = none) : NNF x :=
  ⟨h, fun a b e => by rw [hf] at e; cases e⟩

theorem nnf_mul {x y : Fused c} (hx : NNF x) (hy : NNF y) : NNF (x *. y) := by
  refine ⟨nn_mul hx.1 hy.1, fun a b e => ?_⟩
  have e' : some (x.num, y.num) = some (a, b) := e
  rw [Option.some.injEq, Prod.mk.injEq] at e'
  exact ⟨e'.1 ▸ hx.1, e'.2 ▸ hy.1⟩

theorem nnf_add {x y : Fused c} (hx : NNF x) (hy : NNF y) : NNF (x +. y) := by
  refine .of_num ?_ rfl
  rcases Fused.add_cases x y with e | ⟨u, v, e1, e2⟩ | ⟨u, v, e1, e2⟩
  · rw [e]; exact nn_add hx.1 hy.1
  · rw [e2]; exact nn_fma (hx.2 _ _ e1).1 (hx.2 _ _ e1).2 hy.1
  · rw [e2]; exact nn_fma (hy.2 _ _ e1).1 (hy.2 _ _ e1).2 hx.1

theorem nnf_div {x : Fused c} (hx : NNF x) {n : ℤ} (h : 0 ≤ n) : NNF (x /. fl n) := .of_num (nn_div hx.1 h) rfl
theorem nnf_fl {n : ℤ} (h : 0 ≤ n) : NNF (fl n : Fused c) := .of_num (nn_fl h) rfl

theorem nnf_trF {h l k : Nat → Fused c} (hh : ∀ i, (h i).factors = none) (hl : ∀ i, (l i).factors = none)
    (hlt : ∀ i, (h i <. l i) = false) (i : Nat) : NNF (trF h l k i) := by
  cases i with
  | zero => exact nnf_fl le_rfl
  | succ i =>
    have e : NNF (h (i + 1) -. l (i + 1)) := by
      refine .of_num ?_ rfl
      rw [(is_sub (Reads.is ⟨rfl, hh _⟩) (Reads.is ⟨rfl, hl _⟩)).1]
      exact nn_sub (hlt _)
    rw [trF, trStep]
    split_ifs
    · exact .of_num (nn_abs _) rfl
    · exact .of_num (nn_abs _) rfl
    · exact .of_num (nn_abs _) rfl
    · exact e

theorem nnf_rmaS {p : Int} (hp : 1 ≤ p) {x : Nat → Fused c} (hx : ∀ i, NNF (x i)) (i : Nat) :
    NNF (rmaS p x i).1 ∧ NNF (rmaS p x i).2 := by
  induction i with
  | zero => exact ⟨nnf_fl le_rfl, nnf_fl le_rfl⟩
  | succ k ih =>
    rw [rmaS]
    split
    · exact ⟨nnf_add ih.1 (hx _), nnf_div (nnf_add ih.1 (hx _)) (by omega)⟩
    · exact ⟨nnf_add (nnf_mul ih.2 (nnf_fl (by omega))) (hx _),
        nnf_div (nnf_add (nnf_mul ih.2 (nnf_fl (by omega))) (hx _)) (by omega)⟩

theorem nnf_wilder {p : Nat} (hp : 1 ≤ p) {s : Fused c} {x : Nat → Fused c} (hs : NNF s) (hx : ∀ i, NNF (x i)) (m : Nat) :
    NNF (wilder p s x m) := by
  induction m with
  | zero => exact hs
  | succ m ih =>
    have e : NNF ((fl p : Fused c) -. fl 1) := by
      refine .of_num ?_ rfl
      rw [(is_sub (is_fl _) (is_fl _)).1]
      exact nn_sub (fl_not_lt (by exact_mod_cast hp))
    exact nnf_div (nnf_add (nnf_mul ih e) (hx _)) (by omega)

theorem nnf_atrI (p : Int) {h l k : Nat → Fused c} (hh : ∀ i, (h i).factors = none) (hl : ∀ i, (l i).factors = none)
    (hlt : ∀ i, (h i <. l i) = false) (i : Nat) : NNF (atrI p h l k i) := by
  have ht := nnf_trF (k := k) hh hl hlt
  rw [atrI]
  split_ifs with h1 h2
  · exact nnf_fl le_rfl
  · exact ht i
  · rw [atrF]
    split_ifs
    · exact nnf_fl le_rfl
    · exact nnf_wilder (by omega) (nnf_rmaS (by omega) ht _).2 ht _

theorem step_sideF (s pc : Fused c) {k L : Fused c} (hk : k.factors = none) (hn : NNF L) :
    ((s <. k) = true → (k <. UT.step s pc k L) = false) ∧ ((s <. k) = false → (UT.step s pc k L <. k) = false) := by
  have hs : (k.num <. (k -. L).num) = false := by
    rw [Fused.sub_eq_add]
    rcases Fused.add_cases k L.minus with e | ⟨u, v, e1, e2⟩ | ⟨u, v, e1, e2⟩
    · rw [e]; exact sub_le_self64 k.num hn.1
    · rw [hk] at e1; cases e1
    · unfold Fused.minus at e1
      cases hx : L.factors with
      | none => simp [hx] at e1
      | some f =>
        simp only [hx, Option.map_some, Option.some.injEq, Prod.mk.injEq] at e1
        obtain ⟨rfl, rfl⟩ := e1
        rw [e2]
        exact fma_le_self (hn.2 _ _ hx).1 (hn.2 _ _ hx).2
  have ht : ((k +. L).num <. k.num) = false := by
    rcases Fused.add_cases k L with e | ⟨u, v, e1, e2⟩ | ⟨u, v, e1, e2⟩
    · rw [e]; exact self_le_add64 k.num hn.1
    · rw [hk] at e1; cases e1
    · rw [e2]; exact self_le_fma (hn.2 _ _ e1).1 (hn.2 _ _ e1).2
  refine ⟨fun h1 => ?_, fun h1 => ?_⟩
  · have h2 : (k <. s) = false := ltAsymm_B64 _ _ h1
    rw [UT.step]
    split_ifs with c1 c2
    · exact max64_le h2 hs
    · rw [Bool.and_eq_true] at c2
      exact absurd (c2.1.symm.trans h2) (by decide)
    · exact hs
  · rw [UT.step]
    split_ifs with c1 c2 c3
    · rw [Bool.and_eq_true] at c1
      exact absurd (c1.1.symm.trans h1) (by decide)
    · exact min64_ge h1 ht
    · exact absurd (c3.symm.trans h1) (by decide)
    · exact ht

/-- **C122 (UTBot, side).** Whatever the compiler fuses, with a multiple of at least 0 and no high below its low: after a
close above the previous stop the new stop is not above that close, and after any other close it is not below it. -/
theorem C122_utbot_side {p q : Int} (hp : 0 ≤ p) {u : Item (Fused c)} {it : Item B64} (huv : SameItem u it)
    (hhl : HighLow it) {d : List (UT.Data (Fused c))} (hd : (UT p q).data u = .ok d) {i : Nat} {v w : UT.Data (Fused c)}
    {b : Candle (Fused c)} (hv : d[i]? = some v) (hw : d[i + 1]? = some w) (hb : u.candles[i + 1]? = some b) :
    ((v.value <. b.close) = true → (b.close <. w.value) = false) ∧
    ((v.value <. b.close) = false → (w.value <. b.close) = false) := by
  obtain ⟨n, x, hx, hl, hf⟩ : ∃ n, ∃ x : Nat → Candle (Fused c), u.candles = tab n x ∧
      (∀ i, ((x i).high <. (x i).low) = false) ∧
      ∀ i, (x i).high.factors = none ∧ (x i).low.factors = none ∧ (x i).close.factors = none := by
    obtain ⟨n, x, y, hx, hy, hxy⟩ := huv.tabs
    refine ⟨n, fun i => if i < n then x i else asInputs (Candle.zero 0), ?_, fun i => ?_, fun i => ?_⟩
    · rw [hx]; exact tab_ext fun i hi => by simp [hi]
    · dsimp only
      split
      · next h =>
        have : ((y i).high <. (y i).low) = false := hhl _ (by rw [hy]; exact mem_tab.mpr ⟨i, h, rfl⟩)
        rw [← (hxy i).h.1, ← (hxy i).l.1] at this
        exact this
      · exact xlt_irrefl _
    · dsimp only
      split
      · exact ⟨(hxy i).h.2, (hxy i).l.2, (hxy i).c.2⟩
      · exact ⟨rfl, rfl, rfl⟩
  obtain ⟨-, rfl⟩ := yields_inv (UT.makes p q).yields hx hd
  have hlt : i + 1 < n := by simpa using (List.getElem?_eq_some_iff.mp hw).1
  rw [tab_getElem?_lt hlt] at hw
  rw [tab_getElem?_lt (by omega)] at hv
  rw [hx, tab_getElem?_lt hlt] at hb
  cases hw; cases hv; cases hb
  have e : (UT.out p q x i).value = utF p q x i := by cases i <;> rfl
  rw [e]
  exact step_sideF _ (cl x i) (k := cl x (i + 1)) (hf _).2.2 (nnf_mul (nnf_fl hp) (nnf_atrI q (fun i => (hf i).1)
    (fun i => (hf i).2.1) hl _))

/-! ## Differences -/

/-- Differences of averages: the strategy, the line in its records, and the two lines. -/
inductive GapF (c : Choice) : (I : Strat (Fused c)) → (I.D → Fused c) → (fast slow : Item (Fused c) → Go (List (Fused c))) → Prop
  | apo (p q : Int) : GapF c (APO p q) (·.value) (fun it => Ema p (it.candles.map (·.close)))
      (fun it => Ema q (it.candles.map (·.close)))
  | chaikin (p q : Int) : GapF c (Chaikin p q) (·.value) (fun it => AD.GetValues it >>= Ema p)
      (fun it => AD.GetValues it >>= Ema q)
  | macdDif (s g l : Int) : GapF c (MACD s g l) (·.dif) (fun it => Ema s (it.candles.map (·.close)))
      (fun it => Ema l (it.candles.map (·.close)))
  | macdBar (s g l : Int) : GapF c (MACD s g l) (·.macd) (fun it => (MACD s g l).data it >>= fun d => pure (d.map (·.dif)))
      (fun it => (MACD s g l).data it >>= fun d => pure (d.map (·.dea)))

theorem subF_signF {x : Fused c} (hx : x.factors = none) (y : Fused c) :
    (fl 0 <. subF x y) = (y <. x) ∧ (subF x y <. fl 0) = (x <. y) := by
  have e : (subF x y).num = subF x.num y.num := (is_subF (Reads.is ⟨rfl, hx⟩) rfl).1
  have := subF_sign x.num y.num
  rw [← e] at this
  exact this

theorem adF_none (x : Nat → Candle (Fused c)) (i : Nat) : (adF x i).factors = none := by
  cases i <;> (rw [adF]; split <;> rfl)

theorem difF_none (s l : Int) (x : Nat → Candle (Fused c)) (i : Nat) : (difF s l x i).factors = none := rfl

theorem closesF_tab {it : Item (Fused c)} {n : Nat} {x : Nat → Candle (Fused c)} (hx : it.candles = tab n x) :
    it.candles.map (·.close) = tab n (cl x) := by rw [hx, map_tab]; rfl

/-- **C122 (differences).** Whatever the compiler fuses, the lines of `Apo`, `ChaikinOscillator` and `Macd` (difference and
bar) are positive exactly where the first of the two lines they compare is larger, and negative exactly where it is
smaller, for every series of float64s, whatever it contains. -/
theorem C122_differences {I : Strat (Fused c)} {line : I.D → Fused c} {fast slow : Item (Fused c) → Go (List (Fused c))}
    (h : GapF c I line fast slow) {u : Item (Fused c)} {w : Item B64} (huw : SameItem u w) :
    ∃ (d : List I.D) (f s : List (Fused c)), I.data u = .ok d ∧ fast u = .ok f ∧ slow u = .ok s ∧
      d.length = u.candles.length ∧ f.length = u.candles.length ∧ s.length = u.candles.length ∧
      ∀ (i : Nat) r a b, d[i]? = some r → f[i]? = some a → s[i]? = some b →
        ((fl 0 <. line r) = (b <. a)) ∧ ((line r <. fl 0) = (a <. b)) := by
  obtain ⟨n, x, y, hx, -, hxy⟩ := huw.tabs
  have hn : u.candles.length = n := by rw [hx, tab_length]
  have hcl : ∀ i, (cl x i).factors = none := fun i => (hxy i).c.2
  suffices H : ∃ (G : (Nat → Candle (Fused c)) → Nat → I.D) (f s : Nat → Fused c), I.data u = .ok (tab n (G x)) ∧
      fast u = .ok (tab n f) ∧ slow u = .ok (tab n s) ∧
      ∀ i, (fl 0 <. line (G x i)) = (s i <. f i) ∧ (line (G x i) <. fl 0) = (f i <. s i) by
    obtain ⟨G, f, s, h1, h2, h3, h4⟩ := H
    refine ⟨_, _, _, h1, h2, h3, by simp [hn], by simp [hn], by simp [hn], fun i r a b hr ha hb => ?_⟩
    have hi : i < n := by simpa using (List.getElem?_eq_some_iff.mp hr).1
    rw [tab_getElem?_lt hi] at hr ha hb
    cases hr; cases ha; cases hb
    exact h4 i
  cases h with
  | apo p q =>
    exact ⟨_, _, _, ((APO.makes p q).yields u n x hx).1 trivial, by beta_reduce; rw [closesF_tab hx, Ema_tab],
      by beta_reduce; rw [closesF_tab hx, Ema_tab], fun i => subF_signF (emaF_none hcl p i) _⟩
  | chaikin p q =>
    exact ⟨_, _, _, ((Chaikin.appends p q).yields u n x hx).1 trivial,
      by beta_reduce; rw [AD.GetValues_tab hx, ok_bind, Ema_tab], by beta_reduce; rw [AD.GetValues_tab hx, ok_bind, Ema_tab],
      fun i => subF_signF (emaF_none (adF_none x) p i) _⟩
  | macdDif s g l =>
    exact ⟨_, _, _, ((MACD.makes s g l).yields u n x hx).1 trivial, by beta_reduce; rw [closesF_tab hx, Ema_tab],
      by beta_reduce; rw [closesF_tab hx, Ema_tab], fun i => subF_signF (emaF_none hcl s i) _⟩
  | macdBar s g l =>
    have hd := ((MACD.makes (F := Fused c) s g l).yields u n x hx).1 trivial
    refine ⟨_, fun i => (MACD.out s g l x i).dif, fun i => (MACD.out s g l x i).dea, hd,
      by beta_reduce; rw [hd, ok_bind, map_tab]; rfl, by beta_reduce; rw [hd, ok_bind, map_tab]; rfl, fun i => ?_⟩
    have e : ((MACD.out s g l x i).dif -. (MACD.out s g l x i).dea).num =
        (MACD.out s g l x i).dif.num -. (MACD.out s g l x i).dea.num :=
      (is_sub (Reads.is ⟨rfl, difF_none s l x i⟩) (Reads.is ⟨rfl, emaF_none (difF_none s l x) g i⟩)).1
    have h1 := mul_sign ((MACD.out s g l x i).dif.num -. (MACD.out s g l x i).dea.num) (n := 2) (by norm_num) (by norm_num)
    have h2 := sub_sign (MACD.out s g l x i).dif.num (MACD.out s g l x i).dea.num
    rw [← e] at h1 h2
    exact ⟨h1.1.trans h2.1, h1.2.trans h2.2⟩

/-! ## What does depend on the processor -/

/-- Plain float64 arithmetic, as on amd64. -/
abbrev fuseNone : Choice := fun _ _ => false
/-- Every sum of a product is fused; of two products the left one. -/
abbrev fuseAll : Choice := fun _ _ => true
/-- As `fuseAll`, but a product with the constant 2 on the left is not fused: `2*x + (p-1)*y` is fused into its second
product. -/
def fuseRight : Choice := fun h _ =>
  match h with
  | .binary 2 (.const q) _ => q != 2
  | _ => true

/-- A series of equal opens, highs, lows and closes. -/
def still64 (l : List ℚ) : Item B64 := item64 (l.map fun k => ⟨k, k, k, k, 1⟩)

/-- **C122 (signals, refuted).** On a market that never moves, `TraderXO` with its default periods reports a sale on a
processor that rounds every operation, and none on one that fuses. -/
theorem C122_traderXO_refuted :
    (XO 12 25).signals (fusedItem fuseNone (still64 [0.1, 0.1, 0.1])) = .ok [Hold, Sell, Hold] ∧
    (XO 12 25).signals (fusedItem fuseRight (still64 [0.1, 0.1, 0.1])) = .ok [Hold, Hold, Hold] :=
  ⟨by decide +kernel, by decide +kernel⟩

/-- **C122 (bands, refuted).** On a market that never moves at 1.1, the Bollinger bands of a processor that fuses are NaN,
as the square root is taken of a negative number; those of one that does not fuse are the price. (`stubLib` fills in
library functions that `Boll` does not call.) -/
theorem C122_boll_refuted :
    ((@Boll _ (@Fused.instGoMathOfMathLib fuseNone stubLib) 2 2).data (fusedItem fuseNone (still64 [1.1, 1.1]))).map
      (List.map fun r => (r.upper.num.val, r.lower.num.val, r.md.num.val)) =
      .ok [(.fin (2476979795053773 / 2 ^ 51), .fin (2476979795053773 / 2 ^ 51), .fin 0),
        (.fin (2476979795053773 / 2 ^ 51), .fin (2476979795053773 / 2 ^ 51), .fin 0)] ∧
    ((@Boll _ (@Fused.instGoMathOfMathLib fuseAll stubLib) 2 2).data (fusedItem fuseAll (still64 [1.1, 1.1]))).map
      (List.map fun r => (r.upper.num.val, r.lower.num.val, r.md.num.val)) =
      .ok [(.fin (2476979795053773 / 2 ^ 51), .fin (2476979795053773 / 2 ^ 51), .fin 0), (.nan, .nan, .nan)] :=
  ⟨by decide +kernel, by decide +kernel⟩

/-- **C122 (PPO, refuted).** The bar of `PPO` is the line minus its average. With a signal period of 1 they are the same
numbers, and still the bar is not 0 on a processor that fuses: it shows the rounding error of the line. `C120_differences`
does not hold there. -/
theorem C122_ppo_refuted :
    ((PPO 1 3 1).data (fusedItem fuseNone (still64 [1.1, 1.3]))).map
      (List.map fun r => (decide (r.ppo.num.val = r.signal.num.val), r.histogram.num.val)) =
      .ok [(true, .fin 0), (true, .fin 0)] ∧
    ((PPO 1 3 1).data (fusedItem fuseAll (still64 [1.1, 1.3]))).map
      (List.map fun r => (decide (r.ppo.num.val = r.signal.num.val), r.histogram.num.val)) =
      .ok [(true, .fin 0), (true, .fin (3 / 2 ^ 52))] :=
  ⟨by decide +kernel, by decide +kernel⟩

/-! ## The premises are met -/

/-- The candles of `bars64`, on a processor that fuses. -/
example : SameItem (fusedItem fuseAll (item64 bars64)) (item64 bars64) ∧ Holds64 (item64 bars64) bars64 ∧ Sane64 bars64 :=
  ⟨sameItem_fused _ _, bars64_holds, bars64_sane⟩

/-- `C122_rsi` is about numbers here. -/
example : ((RSI 2).data (fusedItem fuseAll (item64 (bars64 ++ bars64)))).map (List.map fun r => r.value.num.val) =
    .ok [.fin 0, .fin 0, .fin 75, .fin (75 / 2), .fin 75, .fin (3769754152374857 / 2 ^ 46)] := by
  decide +kernel

/-- `C122_ema` applies with the bounds 0 and 1; the values of the two processors differ. -/
example : ((EMA 25).data (fusedItem fuseNone (still64 [0.1, 0.1]))).map (List.map fun r => r.value.num.val) ≠
    ((EMA 25).data (fusedItem fuseRight (still64 [0.1, 0.1]))).map (List.map fun r => r.value.num.val) := by
  decide +kernel
example : Holds64 (still64 [1 / 8, 3 / 8]) [⟨1 / 8, 1 / 8, 1 / 8, 1 / 8, 1⟩, ⟨3 / 8, 3 / 8, 3 / 8, 3 / 8, 1⟩] :=
  holds_item64 (by decide +kernel)

/-- `C122_kdj` is about numbers here, and the values of the two processors differ. -/
example : ((KDJ 2).data (fusedItem fuseAll (item64 (bars64 ++ bars64)))).map (List.map fun r => (r.k.num.val, r.d.num.val)) ≠
    ((KDJ 2).data (fusedItem fuseNone (item64 (bars64 ++ bars64)))).map (List.map fun r => (r.k.num.val, r.d.num.val)) := by
  decide +kernel

/-- `C122_atr` and `C122_keltner`: the values of the two processors differ here too. -/
example : ((Keltner 12).data (fusedItem fuseRight climb64)).map (List.map fun r => r.upper.num.val) ≠
    ((Keltner 12).data (fusedItem fuseNone climb64)).map (List.map fun r => r.upper.num.val) := by
  decide +kernel

/-- The premises of the stops on a processor that fuses: closes above the stop at candles 2 to 4, below it at candles 5 to
7. -/
example : ((UT 1 2).data (fusedItem fuseAll climb64)).map (fun d => premises climb64 (d.map fun r => (r.value.num, r.value.num))) =
    .ok [(true, false), (false, false), (true, false), (true, false), (true, false), (false, true), (false, true),
      (false, true)] := by decide +kernel
example : ((ST 2 1 true).data (fusedItem fuseAll climb64)).map
    (fun d => premises climb64 (d.map fun r => (r.up.num, r.down.num))) =
    .ok [(true, false), (false, false), (true, true), (true, true), (true, false), (false, true), (true, true),
      (true, true)] := by decide +kernel
example : ((PPST 1 2 (fl 1)).data (fusedItem fuseAll climb64)).map
    (fun d => (d.zip (premises climb64 (d.map fun r => (r.up.num, r.down.num)))).map fun (r, q) =>
      ((!(r.up ==. fl 0)) && q.1, (!(r.down ==. fl 0)) && q.2)) =
    .ok [(false, false), (false, false), (false, false), (true, false), (true, false), (false, false), (false, true),
      (false, true)] := by decide +kernel

/-- `C122_differences` on closes one rounding step apart: both signs occur. -/
example : ((APO 1 3).data (fusedItem fuseAll tight64)).map
    (fun d => d.map fun r => (decide (fl 0 <. r.value), decide (r.value <. fl 0))) =
    .ok [(false, false), (true, false), (false, false), (false, false), (true, false)] := by decide +kernel

/-- `C122_lines` and `C122_signals`: a line and signals that agree, on a processor that fuses and one that does not. -/
example : ((CCIi 2 3).data (fusedItem fuseAll (item64 (bars64 ++ bars64)))).map (List.map fun r => r.value.num.val) =
    ((CCIi 2 3).data (item64 (bars64 ++ bars64))).map (List.map fun r => r.value.val) := by decide +kernel

end Verif.Props
