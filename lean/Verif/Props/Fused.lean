import Verif.Go.Fused
import Verif.Props.F64Stops
import Verif.Ind.Scale

/-!
# Fused multiply-add (C122)

The lines that no compiler can change: they are the same float64 numbers on every processor.
-/

set_option linter.unusedSectionVars false

namespace Verif.Props
open Verif Verif.Klines Verif.Ta Verif.Ind Verif.Container GoFloat

variable {c : Choice}

/-! ## The same data -/

/-- A number as it is read from a candle: not a product. -/
def Reads (x : Fused c) (y : B64) : Prop := x.num = y ∧ x.factors = none

/-- The same candle. -/
structure SameCandle (x : Candle (Fused c)) (y : Candle B64) : Prop where
  o : Reads x.open_ y.open_
  h : Reads x.high y.high
  l : Reads x.low y.low
  c : Reads x.close y.close
  v : Reads x.volume y.volume
  a : Reads x.amount y.amount
  p : Reads x.changePercent y.changePercent
  n : x.count = y.count
  b : x.isBull = y.isBull
  t : x.timeUnix = y.timeUnix

/-- The same candles. -/
def SameItem (x : Item (Fused c)) (y : Item B64) : Prop := List.Forall₂ SameCandle x.candles y.candles

theorem SameItem.tabs {x : Item (Fused c)} {y : Item B64} (h : SameItem x y) : ∃ n u v,
    x.candles = tab n u ∧ y.candles = tab n v ∧ ∀ i, SameCandle (u i) (v i) := by
  unfold SameItem at h
  generalize x.candles = xs at h ⊢
  generalize y.candles = ys at h ⊢
  have hz : SameCandle (Candle.zero 0 : Candle (Fused c)) (Candle.zero 0 : Candle B64) := by
    constructor <;> first | exact ⟨rfl, rfl⟩ | rfl
  refine ⟨xs.length, fun i => xs.getD i (Candle.zero 0), fun i => ys.getD i (Candle.zero 0), ?_, ?_, fun i => ?_⟩
  · exact eq_tab_of_forall (by rfl) fun i hi => by simp [hi]
  · refine eq_tab_of_forall h.length_eq.symm fun i hi => ?_
    have : i < ys.length := h.length_eq ▸ hi
    simp [this]
  · by_cases hi : i < xs.length
    · have hi' : i < ys.length := h.length_eq ▸ hi
      have := h.get hi hi'
      simpa [hi, hi'] using this
    · have hi' : ¬ i < ys.length := h.length_eq ▸ hi
      simpa [hi, hi'] using hz

/-! ## Sums that do not depend on the compiler -/

theorem add_comm64 (x y : B64) : x +. y = y +. x := by
  show B64.add x y = B64.add y x
  cases x <;> cases y <;> simp only [B64.add]
  · next s t => cases s <;> cases t <;> rfl
  · next s p _ t q _ => rw [Bool.and_comm, _root_.add_comm]

/-- Nothing is lost if the number is rounded before it is added. -/
def Inert (x : Fused c) : Prop := ∀ a b, x.factors = some (a, b) →
  ∀ z, B64.fma a b z = x.num +. z ∧ B64.fma a.neg b z = x.num.neg +. z

/-- The number `y`, whatever the compiler. -/
def Is (x : Fused c) (y : B64) : Prop := x.num = y ∧ Inert x

theorem Reads.is {x : Fused c} {y : B64} (h : Reads x y) : Is x y :=
  ⟨h.1, fun a b e => by rw [h.2] at e; cases e⟩

theorem is_of (x : B64) (h : Hist) : Is (Fused.of x h : Fused c) x := ⟨rfl, fun _ _ e => by cases e⟩

theorem is_fl (n : Int) : Is (fl n : Fused c) (fl n) := is_of _ _
theorem is_lit (q : Rat) : Is (lit q : Fused c) (lit q) := is_of _ _

theorem is_add {x y : Fused c} {a b : B64} (hx : Is x a) (hy : Is y b) : Is (x +. y) (a +. b) := by
  refine ⟨?_, (is_of _ _).2⟩
  rcases Fused.add_cases x y with h | ⟨u, v, h1, h2⟩ | ⟨u, v, h1, h2⟩
  · rw [h, hx.1, hy.1]
  · rw [h2, (hx.2 u v h1 _).1, hx.1, hy.1]
  · rw [h2, (hy.2 u v h1 _).1, hx.1, hy.1, add_comm64]

theorem neg_neg64 (x : B64) : x.neg.neg = x := by cases x <;> simp [B64.neg]

theorem is_minus {x : Fused c} {a : B64} (hx : Is x a) : Is x.minus a.neg := by
  refine ⟨by rw [← hx.1]; rfl, fun u v e z => ?_⟩
  unfold Fused.minus at e
  cases hf : x.factors with
  | none => simp [hf] at e
  | some f =>
    simp only [hf, Option.map_some, Option.some.injEq, Prod.mk.injEq] at e
    obtain ⟨rfl, rfl⟩ := e
    have := hx.2 _ _ hf z
    refine ⟨this.2, ?_⟩
    rw [neg_neg64, this.1]
    show _ = x.num.neg.neg +. z
    rw [neg_neg64]

theorem is_sub {x y : Fused c} {a b : B64} (hx : Is x a) (hy : Is y b) : Is (x -. y) (a -. b) :=
  ⟨(is_add hx (is_minus hy)).1, (is_of _ _).2⟩

theorem is_div {x y : Fused c} {a b : B64} (hx : x.num = a) (hy : y.num = b) : Is (x /. y) (a /. b) := by
  subst hx hy; exact is_of _ _

theorem is_max {x y : Fused c} {a b : B64} (hx : x.num = a) (hy : y.num = b) : Is (GoFloat.max x y) (GoFloat.max a b) := by
  subst hx hy; exact is_of _ _

theorem is_min {x y : Fused c} {a b : B64} (hx : x.num = a) (hy : y.num = b) : Is (GoFloat.min x y) (GoFloat.min a b) := by
  subst hx hy; exact is_of _ _

theorem is_abs {x : Fused c} {a : B64} (hx : x.num = a) : Is (GoFloat.abs x) (GoFloat.abs a) := by
  subst hx; exact is_of _ _

theorem mul_num {x y : Fused c} {a b : B64} (hx : x.num = a) (hy : y.num = b) : (x *. y).num = a *. b := by
  subst hx hy; rfl

theorem neg_one_form : ∃ h, (fl (-1) : B64) = .fin true 1 h := by
  have h1 : Rep 1 := by
    have := srep_one
    unfold SRep at this
    rwa [abs_one] at this
  refine ⟨h1, ?_⟩
  show B64.ofRat false ((-1 : ℤ) : ℚ) = _
  rw [B64.ofRat, if_neg (by norm_num)]
  have e : |((-1 : ℤ) : ℚ)| = 1 := by norm_num
  have e' : decide (((-1 : ℤ) : ℚ) < 0) = true := by norm_num
  rw [e, e', B64.ofMag]
  simp only [roundMag_rep h1]
  rw [dif_pos h1.2]

theorem mul_neg_one (y : B64) : y *. fl (-1) = y.neg := by
  obtain ⟨h, e⟩ := neg_one_form
  rw [e]
  show B64.mul y _ = _
  cases y with
  | nan => rfl
  | inf s => simp [B64.mul, B64.neg]
  | fin s p hp =>
    simp only [B64.mul, B64.neg, mul_one, Bool.xor_true, B64.ofMag, roundMag_rep hp]
    rw [dif_pos hp.2]

theorem fma_neg_one (x z : B64) : B64.fma x (fl (-1)) z = x.neg +. z := by
  obtain ⟨h, e⟩ := neg_one_form
  cases x with
  | nan => rw [e]; rfl
  | inf s =>
    have := mul_neg_one (.inf s)
    rw [e] at this ⊢
    show B64.add (B64.mul _ _) z = B64.add _ z
    rw [← this]; rfl
  | fin s p hp =>
    rw [e]
    cases z with
    | nan => rfl
    | inf t => rfl
    | fin t q hq =>
      show B64.ofRat _ _ = B64.ofRat _ _
      have e1 : B64.signed s p * B64.signed true 1 = B64.signed (!s) p := by cases s <;> simp [B64.signed]
      rw [Bool.xor_true, e1]

theorem inert_mul {x y : Fused c} (h : ∀ z, B64.fma x.num y.num z = x.num *. y.num +. z ∧
    B64.fma x.num.neg y.num z = (x.num *. y.num).neg +. z) : Inert (x *. y) := by
  intro u v e z
  have e' : some (x.num, y.num) = some (u, v) := e
  rw [Option.some.injEq, Prod.mk.injEq] at e'
  rw [← e'.1, ← e'.2]
  exact h z

/-- A change of sign is no rounding. -/
theorem is_mul_neg {x : Fused c} {a : B64} (hx : x.num = a) : Is (x *. fl (-1)) (a *. fl (-1)) := by
  refine ⟨mul_num hx rfl, inert_mul fun z => ?_⟩
  have e : (fl (-1) : Fused c).num = fl (-1) := rfl
  rw [e, mul_neg_one]
  exact ⟨fma_neg_one _ _, fma_neg_one _ _⟩

theorem is_subF {x y : Fused c} {a b : B64} (hx : Is x a) (hy : y.num = b) : Is (subF x y) (subF a b) :=
  is_add hx (is_mul_neg hy)

theorem is_safeDiv {x y : Fused c} {a b : B64} (hx : x.num = a) (hy : y.num = b) : Is (safeDiv x y) (safeDiv a b) := by
  subst hx hy
  unfold safeDiv
  show Is (if isNaN (x.num /. y.num) || isInf (x.num /. y.num) then _ else _) _
  split
  · exact is_fl 0
  · exact is_of _ _

/-! ## Windows -/

theorem is_runSum {x : Nat → Fused c} {y : Nat → B64} (h : ∀ j, Is (x j) (y j)) (p k : Nat) :
    Is (runSum p x k) (runSum p y k) := by
  induction k with
  | zero => exact is_fl 0
  | succ k ih =>
    rw [runSum, runSum]
    split
    · exact is_sub (is_add ih (h _)) (h _)
    · exact is_add ih (h _)

theorem is_smaFix {x : Fused c} {a : B64} (h : Is x a) : Is (smaFix x) (smaFix a) := by
  rw [smaFix, smaFix]
  show Is (if isNaN x.num || isNegInf x.num then _ else _) _
  rw [h.1]
  split
  · exact is_fl 0
  · exact h

theorem is_smaF {x : Nat → Fused c} {y : Nat → B64} (h : ∀ j, Is (x j) (y j)) (p i : Nat) :
    Is (smaF p x i) (smaF p y i) :=
  is_smaFix (is_div (is_runSum h _ _).1 rfl)

theorem is_accum {x : Nat → Fused c} {y : Nat → B64} (h : ∀ j, Is (x j) (y j)) (lo n : Nat) :
    Is (accum x lo n) (accum y lo n) := by
  induction n with
  | zero => exact is_fl 0
  | succ n ih => exact is_add ih (h _)

theorem is_maF {x : Nat → Fused c} {y : Nat → B64} (h : ∀ j, Is (x j) (y j)) (p i : Nat) : Is (maF p x i) (maF p y i) := by
  rw [maF, maF]
  split
  · exact is_fl 0
  · exact is_div (is_accum h _ _).1 rfl

theorem is_devF {x : Nat → Fused c} {y : Nat → B64} (h : ∀ j, Is (x j) (y j)) (p i : Nat) : Is (devF p x i) (devF p y i) := by
  rw [devF, devF]
  split
  · exact is_fl 0
  · exact is_div (is_accum (fun j => is_abs (is_sub (h j) (is_div (is_accum h _ _).1 rfl)).1) _ _).1 rfl

theorem is_meanDevF {x m : Nat → Fused c} {y k : Nat → B64} (h : ∀ j, Is (x j) (y j)) (hm : ∀ j, Is (m j) (k j)) (p i : Nat) :
    Is (meanDevF p x m i) (meanDevF p y k i) := by
  rw [meanDevF, meanDevF]
  split
  · exact is_fl 0
  · exact is_div (is_accum (fun j => is_abs (is_sub (h j) (hm i)).1) _ _).1 rfl

theorem is_cciF {x : Nat → Fused c} {y : Nat → B64} (h : ∀ j, Is (x j) (y j)) (p sp i : Nat) :
    Is (cciF p sp x i) (cciF p sp y i) := by
  rw [cciF, cciF]
  split
  · exact is_fl 0
  · exact is_div (is_sub (h i) (is_smaF h _ _)).1 (mul_num rfl (is_meanDevF h (is_smaF h sp) _ _).1)

theorem is_aiCciF {x : Nat → Fused c} {y : Nat → B64} (h : ∀ j, Is (x j) (y j)) (p i : Nat) :
    Is (aiCciF p x i) (aiCciF p y i) := by
  rw [aiCciF, aiCciF]
  have e := (is_devF h p i).1
  show Is (if ((devF p x i).num ==. fl 0) = true then _ else _) _
  rw [e]
  split
  · exact is_fl 0
  · exact is_div (is_sub (h i) (is_maF h _ _)).1 (mul_num rfl e)

/-! ## Search trees -/

theorem compare_num (a b : Fused c) : compareFloat64 a.num b.num = compareFloat64 a b := rfl

theorem winTree_num (x : Nat → Fused c) (p k : Nat) : winTree p (fun j => (x j).num) k = (winTree p x k).map Fused.num := by
  induction k with
  | zero => rfl
  | succ k ih =>
    simp only [winTree, ih, bst_insert_map (cv := compareFloat64) compare_num,
      bst_remove_map (cv := compareFloat64) compare_num]
    split <;> rfl

/-- Every value of the tree satisfies `P`. -/
def BstAll {V : Type} (P : V → Prop) : Bst V → Prop
  | .nil => True
  | .node l v r => BstAll P l ∧ P v ∧ BstAll P r

section all
variable {V : Type} {P : V → Prop} {cmp : V → V → Int}

theorem bstAll_insert {x : V} (hx : P x) {t : Bst V} (h : BstAll P t) : BstAll P (t.insert cmp x) := by
  induction t with
  | nil => exact ⟨trivial, hx, trivial⟩
  | node l v r ihl ihr =>
    rw [Bst.insert]
    split
    · exact ⟨ihl h.1, h.2⟩
    · exact ⟨h.1, h.2.1, ihr h.2.2⟩

theorem bstAll_minVal {t : Bst V} {v : V} (h : BstAll P t) (hv : P v) : P (t.minVal v) := by
  induction t generalizing v with
  | nil => exact hv
  | node l w r ihl _ => exact ihl h.1 h.2.1

theorem bstAll_maxVal {t : Bst V} {v : V} (h : BstAll P t) (hv : P v) : P (t.maxVal v) := by
  induction t generalizing v with
  | nil => exact hv
  | node l w r _ ihr => exact ihr h.2.2 h.2.1

theorem bstAll_removeMin {t : Bst V} (h : BstAll P t) : BstAll P t.removeMin := by
  induction t with
  | nil => trivial
  | node l v r ihl _ =>
    cases l with
    | nil => exact h.2.2
    | node l' v' r' => exact ⟨ihl h.1, h.2⟩

theorem bstAll_removeNode {t : Bst V} (h : BstAll P t) : BstAll P t.removeNode := by
  cases t with
  | nil => trivial
  | node l v r =>
    cases l with
    | nil => cases r with
      | nil => trivial
      | node => exact h.2.2
    | node l' v' r' =>
      cases r with
      | nil => exact h.1
      | node l2 v2 r2 => exact ⟨h.1, bstAll_minVal h.2.2.1 h.2.2.2.1, bstAll_removeMin h.2.2⟩

theorem bstAll_remove {x : V} {t : Bst V} (h : BstAll P t) : BstAll P (t.remove cmp x).2 := by
  induction t with
  | nil => trivial
  | node l v r ihl ihr =>
    rw [Bst.remove]
    split
    · exact bstAll_removeNode h
    · split
      · exact ⟨ihl h.1, h.2⟩
      · exact ⟨h.1, h.2.1, ihr h.2.2⟩

end all

theorem winTree_all {F : Type} [GoFloat F] {P : F → Prop} {x : Nat → F} (h : ∀ j, P (x j)) (p k : Nat) :
    BstAll P (winTree p x k) := by
  induction k with
  | zero => trivial
  | succ k ih =>
    show BstAll P (if p ≤ k then _ else _)
    split
    · exact bstAll_remove (bstAll_insert (h _) ih)
    · exact bstAll_insert (h _) ih

theorem maxF_all {F : Type} [GoFloat F] {P : F → Prop} {x : Nat → F} (h : ∀ j, P (x j)) (p i : Nat) : P (maxF p x i) := by
  have := winTree_all h p (i + 1)
  rw [maxF]
  cases e : winTree p x (i + 1) with
  | nil => exact h i
  | node l v r => rw [e] at this; exact bstAll_maxVal this.2.2 this.2.1

theorem minF_all {F : Type} [GoFloat F] {P : F → Prop} {x : Nat → F} (h : ∀ j, P (x j)) (p i : Nat) : P (minF p x i) := by
  have := winTree_all h p (i + 1)
  rw [minF]
  cases e : winTree p x (i + 1) with
  | nil => exact h i
  | node l v r => rw [e] at this; exact bstAll_minVal this.1 this.2.1

theorem is_maxF {x : Nat → Fused c} {y : Nat → B64} (h : ∀ j, Is (x j) (y j)) (p i : Nat) : Is (maxF p x i) (maxF p y i) := by
  refine ⟨?_, maxF_all (fun j => (h j).2) p i⟩
  obtain rfl : (fun j => (x j).num) = y := funext fun j => (h j).1
  rw [maxF, maxF, winTree_num, bst_max_map]
  cases (winTree p x (i + 1)).max <;> rfl

theorem is_minF {x : Nat → Fused c} {y : Nat → B64} (h : ∀ j, Is (x j) (y j)) (p i : Nat) : Is (minF p x i) (minF p y i) := by
  refine ⟨?_, minF_all (fun j => (h j).2) p i⟩
  obtain rfl : (fun j => (x j).num) = y := funext fun j => (h j).1
  rw [minF, minF, winTree_num, bst_min_map]
  cases (winTree p x (i + 1)).min <;> rfl

/-! ## The lines -/

section lines
variable {x : Nat → Candle (Fused c)} {y : Nat → Candle B64}

theorem is_cl (h : ∀ i, SameCandle (x i) (y i)) (i : Nat) : Is (cl x i) (cl y i) := (h i).c.is
theorem is_hi (h : ∀ i, SameCandle (x i) (y i)) (i : Nat) : Is (Ind.hi x i) (Ind.hi y i) := (h i).h.is
theorem is_lo (h : ∀ i, SameCandle (x i) (y i)) (i : Nat) : Is (Ind.lo x i) (Ind.lo y i) := (h i).l.is
theorem is_vo (h : ∀ i, SameCandle (x i) (y i)) (i : Nat) : Is (vo x i) (vo y i) := (h i).v.is

theorem is_typF (h : ∀ i, SameCandle (x i) (y i)) (i : Nat) : Is (typF x i) (typF y i) :=
  is_div (is_add (is_add (is_hi h i) (is_lo h i)) (is_cl h i)).1 rfl

theorem stochK_num (h : ∀ i, SameCandle (x i) (y i)) (p : Int) (i : Nat) : (stochK p x i).num = stochK p y i :=
  mul_num (is_safeDiv (is_subF (is_cl h i) (is_minF (is_lo h) _ _).1).1
    (is_subF (is_maxF (is_hi h) _ _) (is_minF (is_lo h) _ _).1).1).1 rfl

theorem williamsF_num (h : ∀ i, SameCandle (x i) (y i)) (p : Int) (i : Nat) : (williamsF p x i).num = williamsF p y i :=
  mul_num (is_div (is_sub (is_maxF (is_hi h) _ _) (is_cl h i)).1
    (is_sub (is_maxF (is_hi h) _ _) (is_minF (is_lo h) _ _)).1).1 rfl

theorem midHL_num (h : ∀ i, SameCandle (x i) (y i)) (p q i : Nat) : (midHL p q x i).num = midHL p q y i :=
  mul_num (is_add (is_maxF (is_hi h) _ _) (is_minF (is_lo h) _ _)).1 rfl

theorem is_obvF (h : ∀ i, SameCandle (x i) (y i)) (i : Nat) : Is (obvF x i) (obvF y i) := by
  induction i with
  | zero => exact is_fl 0
  | succ k ih =>
    rw [obvF, obvF]
    have e1 := (is_cl h (k + 1)).1
    have e0 := (is_cl h k).1
    show Is (if ((cl x k).num <. (cl x (k + 1)).num) = true then _ else if ((cl x (k + 1)).num <. (cl x k).num) = true
      then _ else if ((cl x (k + 1)).num ==. (cl x k).num) = true then _ else _)
      (if (cl y k <. cl y (k + 1)) = true then _ else _)
    rw [e1, e0]
    split
    · exact is_add ih (is_vo h _)
    · split
      · exact is_sub ih (is_vo h _)
      · split
        · exact ih
        · exact is_fl 0

theorem is_ringSum {u : Nat → Fused c} {v : Nat → B64} (h : ∀ i, Is (u i) (v i)) (p i : Nat) :
    Is (ringSum p u i) (ringSum p v i) := by
  induction i with
  | zero => exact is_fl 0
  | succ k ih =>
    refine is_add (is_sub ih ?_) (h _)
    split
    · exact h _
    · exact is_fl 0

theorem is_vmTR (h : ∀ i, SameCandle (x i) (y i)) (i : Nat) : Is (vmTR x i) (vmTR y i) :=
  is_max (is_sub (is_hi h i) (is_lo h i)).1 (is_max (is_abs (is_sub (is_hi h i) (is_cl h _)).1).1
    (is_abs (is_sub (is_lo h i) (is_cl h _)).1).1).1

theorem is_viPlus (h : ∀ i, SameCandle (x i) (y i)) (p i : Nat) : Is (viPlus p x i) (viPlus p y i) := by
  rw [viPlus, viPlus]
  split
  · exact is_fl 0
  · exact is_div (is_ringSum (fun i => is_abs (is_sub (is_hi h i) (is_lo h _)).1) _ _).1 (is_ringSum (is_vmTR h) _ _).1

theorem is_viMinus (h : ∀ i, SameCandle (x i) (y i)) (p i : Nat) : Is (viMinus p x i) (viMinus p y i) := by
  rw [viMinus, viMinus]
  split
  · exact is_fl 0
  · exact is_div (is_ringSum (fun i => is_abs (is_sub (is_lo h i) (is_hi h _)).1) _ _).1 (is_ringSum (is_vmTR h) _ _).1

theorem is_trI (h : ∀ i, SameCandle (x i) (y i)) (i : Nat) : Is (trI x i) (trI y i) := by
  have hc : Is (if i = 0 then fl 0 else cl x (i - 1) : Fused c) (if i = 0 then fl 0 else cl y (i - 1)) := by
    split
    · exact is_fl 0
    · exact is_cl h _
  exact is_max (is_sub (is_hi h i) (is_lo h i)).1 (is_max (is_sub (is_hi h i) hc).1 (is_sub (is_lo h i) hc).1).1

theorem revF_num [B64.MathLib] (h : ∀ i, SameCandle (x i) (y i)) (i : Nat) : revF x i = revF y i := by
  induction i with
  | zero => rfl
  | succ k ih =>
    rw [revF, revF, ih]
    show (if k < 4 then _ else Rev.count _ ((cl x k).num <. (cl x (k - 4)).num)) = _
    rw [(is_cl h k).1, (is_cl h (k - 4)).1]

theorem rev_num [B64.MathLib] (h : ∀ i, SameCandle (x i) (y i)) (i : Nat) : Rev.out x i = Rev.out y i := by
  rw [Rev.out, Rev.out, revF_num h, show ti x i = ti y i from (h i).t, ← (is_lo h i).1, ← (is_lo h (i - 1)).1,
    ← (is_lo h (i - 2)).1, ← (is_lo h (i - 3)).1, ← (is_hi h i).1, ← (is_hi h (i - 1)).1, ← (is_hi h (i - 2)).1,
    ← (is_hi h (i - 3)).1]
  rfl

end lines

/-! ## The indicators -/

/-- The lines of the library that are computed without adding to a product: `f` and `g` pick them out of a record. -/
inductive Steady [B64.MathLib] (c : Choice) : {T : Type} → (I : Indicator (Fused c)) → (J : Indicator B64) →
    (I.D → T) → (J.D → T) → Prop
  | sma (p : Int) : Steady c (SMA p) (SMA p) (fun r => (r.time, r.value.num)) (fun r => (r.time, r.value))
  | cci (p q : Int) : Steady c (CCIi p q).toIndicator (CCIi p q).toIndicator (fun r => (r.time, r.value.num))
      (fun r => (r.time, r.value))
  | aiCoinCci (p : Int) : Steady c (AiCCI p).toIndicator (AiCCI p).toIndicator (fun r => (r.time, r.value.num))
      (fun r => (r.time, r.value))
  | williams (p : Int) : Steady c (Williams p).toIndicator (Williams p).toIndicator (fun r => (r.time, r.value.num))
      (fun r => (r.time, r.value))
  | stochasticK (p : Int) : Steady c (Stoch p).toIndicator (Stoch p).toIndicator (fun r => (r.time, r.k.num))
      (fun r => (r.time, r.k))
  | obv : Steady c OBV OBV (fun r => (r.time, r.value.num)) (fun r => (r.time, r.value))
  | vortex (p : Int) : Steady c (Vortex p) (Vortex p) (fun r => (r.time, r.plus.num, r.minus.num))
      (fun r => (r.time, r.plus, r.minus))
  | donchian (p : Int) : Steady c (Donchian p).toIndicator (Donchian p).toIndicator
      (fun r => (r.time, r.upper.num, r.middle.num, r.lower.num)) (fun r => (r.time, r.upper, r.middle, r.lower))
  | ichimoku (p q s : Int) : Steady c (Ichimoku p q s).toIndicator (Ichimoku p q s).toIndicator
      (fun r => (r.time, r.conversion.num, r.base.num, r.spanB.num, r.lagging.num))
      (fun r => (r.time, r.conversion, r.base, r.spanB, r.lagging))
  | trueRange (p : Int) : Steady c (ATR p) (ATR p) (fun r => (r.time, r.tr.num)) (fun r => (r.time, r.tr))
  | reversal : Steady c Rev Rev id id

theorem steady_of {T : Type} {I : Indicator (Fused c)} {J : Indicator B64} {f : I.D → T} {g : J.D → T} {ok : Nat → Prop} {G H}
    (hI : Yields I ok G) (hJ : Yields J ok H)
    (he : ∀ x y, (∀ i, SameCandle (x i) (y i)) → ∀ i, f (G x i) = g (H y i))
    {u : Item (Fused c)} {v : Item B64} (huv : SameItem u v) :
    (I.data u).toOption.map (List.map f) = (J.data v).toOption.map (List.map g) := by
  obtain ⟨n, x, y, hx, hy, h⟩ := huv.tabs
  by_cases hn : ok n
  · rw [(hI u n x hx).1 hn, (hJ v n y hy).1 hn]
    show some _ = some _
    rw [map_tab, map_tab]
    exact congrArg some (tab_ext fun i _ => he x y h i)
  · obtain ⟨p, hp⟩ := (hI u n x hx).2 hn
    obtain ⟨q, hq⟩ := (hJ v n y hy).2 hn
    rw [hp, hq]; rfl

/-- **C122 (lines).** Whatever the compiler fuses, these lines are the same float64 numbers, for every series and all
parameters, and the method panics in the same cases. -/
theorem C122_lines [B64.MathLib] {T : Type} {I : Indicator (Fused c)} {J : Indicator B64} {f : I.D → T} {g : J.D → T}
    (hs : Steady c I J f g) {u : Item (Fused c)} {v : Item B64} (huv : SameItem u v) :
    (I.data u).toOption.map (List.map f) = (J.data v).toOption.map (List.map g) := by
  have pair : ∀ {S : Type} {a b : Int} {p q : S}, a = b → p = q → (a, p) = (b, q) := fun h1 h2 => by rw [h1, h2]
  cases hs with
  | sma p => exact steady_of (SMA.makes p).yields (SMA.makes p).yields (fun x y h i =>
      pair (h i).t (is_smaF (is_cl h) _ i).1) huv
  | cci p q => exact steady_of (CCIi.appends p q).yields (CCIi.appends p q).yields (fun x y h i =>
      pair (h i).t (is_cciF (is_typF h) _ _ i).1) huv
  | aiCoinCci p => exact steady_of (AiCCI.appends p).yields (AiCCI.appends p).yields (fun x y h i =>
      pair (h i).t (is_aiCciF (is_cl h) _ i).1) huv
  | williams p => exact steady_of (Williams.appends p).yields (Williams.appends p).yields (fun x y h i =>
      pair (h i).t (williamsF_num h _ i)) huv
  | stochasticK p => exact steady_of (Stoch.appends p).yields (Stoch.appends p).yields (fun x y h i =>
      pair (h i).t (stochK_num h _ i)) huv
  | obv => exact steady_of OBV.grows.yields OBV.grows.yields (fun x y h i => pair (h i).t (is_obvF h i).1) huv
  | vortex p => exact steady_of (Vortex.appends p).yields (Vortex.appends p).yields (fun x y h i =>
      pair (h i).t (Prod.ext (is_viPlus h _ i).1 (is_viMinus h _ i).1)) huv
  | donchian p => exact steady_of (Donchian.appends p).yields (Donchian.appends p).yields (fun x y h i =>
      pair (h i).t (Prod.ext (is_maxF (is_cl h) _ i).1 (Prod.ext
        (mul_num (is_add (is_maxF (is_cl h) _ i) (is_minF (is_cl h) _ i)).1 rfl) (is_minF (is_cl h) _ i).1))) huv
  | ichimoku p q s => exact steady_of (Ichimoku.appends p q s).yields (Ichimoku.appends p q s).yields (fun x y h i =>
      pair (h i).t (Prod.ext (midHL_num h _ _ i) (Prod.ext (midHL_num h _ _ i) (Prod.ext (midHL_num h _ _ i) (by
        show (shiftF _ (fl 0) (cl x) i).num = shiftF _ (fl 0) (cl y) i
        rw [shiftF, shiftF]
        split
        · rfl
        · exact (is_cl h _).1))))) huv
  | trueRange p => exact steady_of (ATR.makes p).yields (ATR.makes p).yields (fun x y h i =>
      pair (h i).t (is_trI h i).1) huv
  | reversal => exact steady_of Rev.makes.yields Rev.makes.yields (fun x y h i => rev_num h i) huv

/-! ## The strategies -/

/-- The strategies that read only such lines. -/
inductive SteadySides (c : Choice) : Strat (Fused c) → Strat B64 → Prop
  | cci (p q : Int) : SteadySides c (CCIi p q) (CCIi p q)
  | aiCoinCci (p : Int) : SteadySides c (AiCCI p) (AiCCI p)
  | williams (p : Int) : SteadySides c (Williams p) (Williams p)
  | donchian (p : Int) : SteadySides c (Donchian p) (Donchian p)

theorem steadySides_of {I : Strat (Fused c)} {J : Strat B64} {ok : Nat → Prop} {f g}
    (hI : Signals I ok f) (hJ : Signals J ok g) (he : ∀ x y, (∀ i, SameCandle (x i) (y i)) → ∀ i, f x i = g y i)
    {u : Item (Fused c)} {v : Item B64} (huv : SameItem u v) : (I.signals u).toOption = (J.signals v).toOption := by
  obtain ⟨n, x, y, hx, hy, h⟩ := huv.tabs
  by_cases hn : ok n
  · rw [(hI u n x hx).1 hn, (hJ v n y hy).1 hn]
    exact congrArg some (tab_ext fun i _ => he x y h i)
  · obtain ⟨p, hp⟩ := (hI u n x hx).2 hn
    obtain ⟨q, hq⟩ := (hJ v n y hy).2 hn
    rw [hp, hq]; rfl

theorem cciRule_num {a b : Rec (Fused c)} {p q : Rec B64} (h1 : a.value.num = p.value) (h2 : b.value.num = q.value) :
    CCIi.rule a b = CCIi.rule p q := by
  rw [CCIi.rule, CCIi.rule, ← h1, ← h2]; rfl

theorem bandRule_num {a b : Band (Fused c)} {p q : Band B64} {u v : Fused c} {r s : B64} (h1 : a.middle.num = p.middle)
    (h2 : b.middle.num = q.middle) (hu : u.num = r) (hv : v.num = s) : Band.rule a b u v = Band.rule p q r s := by
  rw [Band.rule, Band.rule, ← h1, ← h2, ← hu, ← hv]; rfl

theorem williamsRule_num {a b : Rec (Fused c)} {p q : Rec B64} (h1 : a.value.num = p.value) (h2 : b.value.num = q.value) :
    Williams.rule a b = Williams.rule p q := by
  rw [Williams.rule, Williams.rule, ← h1, ← h2]; rfl

/-- **C122 (signals).** Whatever the compiler fuses, these strategies give the same signals. -/
theorem C122_signals {I : Strat (Fused c)} {J : Strat B64} (hs : SteadySides c I J) {u : Item (Fused c)} {v : Item B64}
    (huv : SameItem u v) : (I.signals u).toOption = (J.signals v).toOption := by
  cases hs with
  | cci p q => exact steadySides_of (CCIi.signals p q) (CCIi.signals p q) (fun x y h i => by
      cases i with
      | zero => rfl
      | succ i => exact cciRule_num (is_cciF (is_typF h) _ _ i).1 (is_cciF (is_typF h) _ _ (i + 1)).1) huv
  | aiCoinCci p => exact steadySides_of (AiCCI.signals p) (AiCCI.signals p) (fun x y h i => by
      cases i with
      | zero => rfl
      | succ i => exact cciRule_num (is_aiCciF (is_cl h) _ i).1 (is_aiCciF (is_cl h) _ (i + 1)).1) huv
  | williams p => exact steadySides_of (Williams.signals p) (Williams.signals p) (fun x y h i => by
      cases i with
      | zero => rfl
      | succ i => exact williamsRule_num (williamsF_num h _ i) (williamsF_num h _ (i + 1))) huv
  | donchian p => exact steadySides_of (Donchian.signals p) (Donchian.signals p) (fun x y h i => by
      cases i with
      | zero => rfl
      | succ i =>
        have m : ∀ i, (Donchian.out (F := Fused c) p x i).middle.num = (Donchian.out p y i).middle := fun i =>
          mul_num (is_add (is_maxF (is_cl h) _ i) (is_minF (is_cl h) _ i)).1 rfl
        exact bandRule_num (m i) (m (i + 1)) (is_cl h i).1 (is_cl h (i + 1)).1) huv

end Verif.Props
