import Verif.Ind.Signals

/-!
# Changing the unit of prices and volumes

How the closed forms of the indicators react when every price (or every volume) is multiplied by a constant. The
argument only uses that the multiplication commutes with the operations (`Scaling`); in exact arithmetic every
positive constant gives one (`Scaling.ofPos`).
-/

set_option linter.unusedSectionVars false

namespace Verif.Ind
open Verif Verif.Klines Verif.Ta Verif.Container GoFloat

variable {F : Type}

/-- A change of unit: a map of the numbers that respects sums, order, and products and quotients with other numbers. -/
structure Scaling (F : Type) [GoFloat F] where
  /-- the conversion -/
  s : F → F
  add : ∀ a b, s a +. s b = s (a +. b)
  sub : ∀ a b, s a -. s b = s (a -. b)
  mul_left : ∀ a b, s a *. b = s (a *. b)
  mul_right : ∀ a b, a *. s b = s (a *. b)
  div_left : ∀ a b, s a /. b = s (a /. b)
  div_both : ∀ a b, s a /. s b = a /. b
  lt : ∀ a b, (s a <. s b) = (a <. b)
  le : ∀ a b, (s a <=. s b) = (a <=. b)
  eq : ∀ a b, (s a ==. s b) = (a ==. b)
  zero : s (fl 0) = fl 0
  isNaN : ∀ a, isNaN (s a) = isNaN a
  isPosInf : ∀ a, isPosInf (s a) = isPosInf a
  isNegInf : ∀ a, isNegInf (s a) = isNegInf a
  abs : ∀ a, abs (s a) = s (abs a)
  max : ∀ a b, max (s a) (s b) = s (max a b)
  min : ∀ a b, min (s a) (s b) = s (min a b)

namespace XF
variable {K : Type} [Field K] [LinearOrder K]

/-- Multiplication of the numbers by a constant, the special values left alone. -/
def times (c : K) : XF K → XF K
  | .fin a => .fin (c * a)
  | a => a

end XF

/-- In exact arithmetic every positive constant is a change of unit. -/
def Scaling.ofPos {K : Type} [Field K] [LinearOrder K] [IsStrictOrderedRing K] (c : K) (hc : 0 < c) : Scaling (XF K) where
  s := XF.times c
  add a b := by
    show XF.add _ _ = XF.times c (XF.add _ _)
    cases a <;> cases b <;> simp [XF.add, XF.times, mul_add]
  sub a b := by
    show XF.add _ (XF.neg _) = XF.times c (XF.add _ (XF.neg _))
    cases a <;> cases b <;> simp [XF.add, XF.times, XF.neg, mul_add]
  mul_left a b := by
    show XF.mul _ _ = XF.times c (XF.mul _ _)
    cases a <;> cases b <;> simp [XF.mul, XF.times, XF.infSign, hc, mul_assoc, mul_pos_iff_of_pos_left, mul_neg_iff,
      not_lt_of_gt hc] <;> split <;> simp_all <;> split <;> simp_all
  mul_right a b := by
    show XF.mul _ _ = XF.times c (XF.mul _ _)
    cases a <;> cases b <;> simp [XF.mul, XF.times, XF.infSign, hc, mul_left_comm, mul_pos_iff_of_pos_left, mul_neg_iff,
      not_lt_of_gt hc] <;> split <;> simp_all <;> split <;> simp_all
  div_left a b := by
    show XF.div _ _ = XF.times c (XF.div _ _)
    cases a <;> cases b <;> simp [XF.div, XF.times, XF.infSign, hc, mul_div_assoc, mul_pos_iff_of_pos_left, mul_neg_iff,
      not_lt_of_gt hc] <;> split <;> (try simp_all) <;> split <;> (try simp_all) <;> split <;> simp_all
  div_both a b := by
    show XF.div _ _ = XF.div _ _
    cases a <;> cases b <;> simp [XF.div, XF.times, XF.infSign, hc, hc.ne', mul_div_mul_left, mul_pos_iff_of_pos_left, mul_neg_iff,
      not_lt_of_gt hc]
  lt a b := by
    show XF.lt _ _ = XF.lt _ _
    cases a <;> cases b <;> simp [XF.lt, XF.times, hc]
  le a b := by
    show (XF.lt _ _ || XF.eq _ _) = (XF.lt _ _ || XF.eq _ _)
    cases a <;> cases b <;> simp [XF.lt, XF.eq, XF.times, hc, hc.ne']
  eq a b := by
    show XF.eq _ _ = XF.eq _ _
    cases a <;> cases b <;> simp [XF.eq, XF.times, hc.ne']
  zero := by show XF.times c (.fin _) = .fin _; simp [XF.times]
  isNaN a := by cases a <;> rfl
  isPosInf a := by cases a <;> rfl
  isNegInf a := by cases a <;> rfl
  abs a := by
    show XF.abs _ = XF.times c (XF.abs _)
    cases a <;> simp [XF.abs, XF.times, mul_neg_iff, hc, not_lt_of_gt hc, apply_ite (fun v => c * v)]
  max a b := by
    show XF.max _ _ = XF.times c (XF.max _ _)
    cases a <;> cases b <;> simp [XF.max, XF.times, mul_max_of_nonneg _ _ hc.le]
  min a b := by
    show XF.min _ _ = XF.times c (XF.min _ _)
    cases a <;> cases b <;> simp [XF.min, XF.times, mul_min_of_nonneg _ _ hc.le]


namespace Scaling
variable [GoFloat F] (σ τ : Scaling F)

theorem lt_zero (a : F) : (σ.s a <. fl 0) = (a <. fl 0) := by
  have := σ.lt a (fl 0); rwa [σ.zero] at this
theorem zero_lt (a : F) : (fl 0 <. σ.s a) = (fl 0 <. a) := by
  have := σ.lt (fl 0) a; rwa [σ.zero] at this
theorem le_zero (a : F) : (σ.s a <=. fl 0) = (a <=. fl 0) := by
  have := σ.le a (fl 0); rwa [σ.zero] at this
theorem zero_le (a : F) : (fl 0 <=. σ.s a) = (fl 0 <=. a) := by
  have := σ.le (fl 0) a; rwa [σ.zero] at this
theorem eq_zero (a : F) : (σ.s a ==. fl 0) = (a ==. fl 0) := by
  have := σ.eq a (fl 0); rwa [σ.zero] at this
theorem add_zero (a : F) : σ.s a +. fl 0 = σ.s (a +. fl 0) := by
  have := σ.add a (fl 0); rwa [σ.zero] at this
theorem zero_add (a : F) : fl 0 +. σ.s a = σ.s (fl 0 +. a) := by
  have := σ.add (fl 0) a; rwa [σ.zero] at this
theorem sub_zero (a : F) : σ.s a -. fl 0 = σ.s (a -. fl 0) := by
  have := σ.sub a (fl 0); rwa [σ.zero] at this
theorem zero_sub (a : F) : fl 0 -. σ.s a = σ.s (fl 0 -. a) := by
  have := σ.sub (fl 0) a; rwa [σ.zero] at this
theorem div_fl (a : F) (n : Int) : σ.s a /. fl n = σ.s (a /. fl n) := σ.div_left a (fl n)
theorem isInf (a : F) : GoFloat.isInf (σ.s a) = GoFloat.isInf a := by
  simp only [GoFloat.isInf, σ.isPosInf, σ.isNegInf]
theorem ite {c : Prop} [Decidable c] (a b : F) : (if c then σ.s a else σ.s b) = σ.s (if c then a else b) := by
  split <;> rfl
theorem ite_zero {c : Prop} [Decidable c] (a : F) : (if c then σ.s a else fl 0) = σ.s (if c then a else fl 0) := by
  split
  · rfl
  · exact σ.zero.symm
theorem zero_ite {c : Prop} [Decidable c] (a : F) : (if c then fl 0 else σ.s a) = σ.s (if c then fl 0 else a) := by
  split
  · exact σ.zero.symm
  · rfl

end Scaling

/-- Moves changes of unit outwards. -/
macro "unit_simp" : tactic => `(tactic| simp only [Scaling.add, Scaling.sub, Scaling.mul_left, Scaling.mul_right,
  Scaling.div_both, Scaling.lt, Scaling.le, Scaling.eq, Scaling.zero, Scaling.isNaN, Scaling.isPosInf,
  Scaling.isNegInf, Scaling.abs, Scaling.max, Scaling.min, Scaling.lt_zero, Scaling.zero_lt, Scaling.le_zero,
  Scaling.zero_le, Scaling.eq_zero, Scaling.add_zero, Scaling.zero_add, Scaling.sub_zero, Scaling.zero_sub,
  Scaling.div_fl, Scaling.isInf, Scaling.ite, Scaling.ite_zero, Scaling.zero_ite, GoFloat.gt, GoFloat.ge])

section ta
variable [GoFloat F] (σ : Scaling F) {x y : Nat → F}

theorem runSum_scale (h : ∀ j, y j = σ.s (x j)) (p k : Nat) : runSum p y k = σ.s (runSum p x k) := by
  induction k with
  | zero => exact σ.zero.symm
  | succ k ih => rw [runSum, runSum, ih, h, h]; unit_simp

theorem smaFix_scale (v : F) : smaFix (σ.s v) = σ.s (smaFix v) := by
  simp only [smaFix]; unit_simp

theorem smaF_scale (h : ∀ j, y j = σ.s (x j)) (p i : Nat) : smaF p y i = σ.s (smaF p x i) := by
  rw [smaF, smaF, runSum_scale σ h]; unit_simp; rw [smaFix_scale]

theorem accum_scale (h : ∀ j, y j = σ.s (x j)) (lo c : Nat) : accum y lo c = σ.s (accum x lo c) := by
  induction c with
  | zero => exact σ.zero.symm
  | succ c ih => rw [accum, accum, ih, h]; unit_simp

theorem maF_scale (h : ∀ j, y j = σ.s (x j)) (p i : Nat) : maF p y i = σ.s (maF p x i) := by
  rw [maF, maF, accum_scale σ h]; unit_simp

theorem devF_scale (h : ∀ j, y j = σ.s (x j)) (p i : Nat) : devF p y i = σ.s (devF p x i) := by
  rw [devF, devF, accum_scale σ h, accum_scale σ (x := fun j => GoFloat.abs (x j -. accum x (i + 1 - p) p /. fl p))]
  · unit_simp
  · intro j; rw [h]; unit_simp

theorem meanDevF_scale {m m' : Nat → F} (h : ∀ j, y j = σ.s (x j)) (hm : ∀ j, m' j = σ.s (m j)) (p i : Nat) :
    meanDevF p y m' i = σ.s (meanDevF p x m i) := by
  rw [meanDevF, meanDevF, accum_scale σ (x := fun j => GoFloat.abs (x j -. m i))]
  · unit_simp
  · intro j; rw [h, hm]; unit_simp

theorem cciF_scale (h : ∀ j, y j = σ.s (x j)) (p sp i : Nat) : cciF p sp y i = cciF p sp x i := by
  rw [cciF, cciF, meanDevF_scale σ h (smaF_scale σ h sp), smaF_scale σ h, h]; unit_simp

theorem aiCciF_scale (h : ∀ j, y j = σ.s (x j)) (p i : Nat) : aiCciF p y i = aiCciF p x i := by
  rw [aiCciF, aiCciF, devF_scale σ h, maF_scale σ h, h]; unit_simp

theorem emaF_scale (h : ∀ j, y j = σ.s (x j)) (p : Int) (i : Nat) : emaF p y i = σ.s (emaF p x i) := by
  induction i with
  | zero => exact h 0
  | succ i ih => rw [emaF, emaF, ih, h]; unit_simp

theorem subF_scale (a b : F) : subF (σ.s a) (σ.s b) = σ.s (subF a b) := by
  rw [subF, subF]; unit_simp

theorem demaF_scale (h : ∀ j, y j = σ.s (x j)) (p : Int) (i : Nat) : demaF p y i = σ.s (demaF p x i) := by
  rw [demaF, demaF, emaF_scale σ (emaF_scale σ h p), emaF_scale σ h]; unit_simp; rw [subF_scale]

theorem rmaS_scale (h : ∀ j, y j = σ.s (x j)) (p : Int) (i : Nat) :
    rmaS p y i = (σ.s (rmaS p x i).1, σ.s (rmaS p x i).2) := by
  induction i with
  | zero => simp only [rmaS, σ.zero]
  | succ i ih =>
    rw [rmaS, rmaS, ih, h]
    split <;> unit_simp

theorem rmaF_scale (h : ∀ j, y j = σ.s (x j)) (p : Int) (i : Nat) : rmaF p y i = σ.s (rmaF p x i) := by
  rw [rmaF, rmaF, rmaS_scale σ h]

theorem shiftF_scale {fill fill' : F} (h : ∀ j, y j = σ.s (x j)) (hf : fill' = σ.s fill) (p i : Nat) :
    shiftF p fill' y i = σ.s (shiftF p fill x i) := by
  rw [shiftF, shiftF, h, hf]; unit_simp

theorem safeDiv_both (a b : F) : safeDiv (σ.s a) (σ.s b) = safeDiv a b := by
  rw [safeDiv, safeDiv]; unit_simp

theorem safeDiv_left (a b : F) : safeDiv (σ.s a) b = σ.s (safeDiv a b) := by
  rw [safeDiv, safeDiv, σ.div_left]; unit_simp

theorem compare_scale (a b : F) : compareFloat64 (σ.s a) (σ.s b) = compareFloat64 a b := by
  rw [compareFloat64, compareFloat64]; unit_simp

end ta

/-- The tree with every value converted. -/
def _root_.Verif.Container.Bst.map {V W : Type} (f : V → W) : Bst V → Bst W
  | .nil => .nil
  | .node l v r => .node (l.map f) (f v) (r.map f)

section tree
variable {V W : Type} {f : V → W} {cv : V → V → Int} {cw : W → W → Int}

theorem bst_insert_map (hf : ∀ a b, cw (f a) (f b) = cv a b) (a : V) (t : Bst V) :
    (t.map f).insert cw (f a) = (t.insert cv a).map f := by
  induction t with
  | nil => rfl
  | node l v r ihl ihr =>
    simp only [Bst.map, Bst.insert, hf, ihl, ihr]
    split <;> rfl

theorem bst_minVal_map (l : Bst V) (v : V) : (l.map f).minVal (f v) = f (l.minVal v) := by
  induction l generalizing v with
  | nil => rfl
  | node l v' r ihl _ => exact ihl v'

theorem bst_maxVal_map (r : Bst V) (v : V) : (r.map f).maxVal (f v) = f (r.maxVal v) := by
  induction r generalizing v with
  | nil => rfl
  | node l v' r _ ihr => exact ihr v'

theorem bst_min_map (t : Bst V) : (t.map f).min = t.min.map f := by
  cases t with
  | nil => rfl
  | node l v r => simp only [Bst.map, Bst.min, bst_minVal_map, Option.map_some]

theorem bst_max_map (t : Bst V) : (t.map f).max = t.max.map f := by
  cases t with
  | nil => rfl
  | node l v r => simp only [Bst.map, Bst.max, bst_maxVal_map, Option.map_some]

theorem bst_removeMin_map (t : Bst V) : (t.map f).removeMin = t.removeMin.map f := by
  induction t with
  | nil => rfl
  | node l v r ihl _ =>
    cases l with
    | nil => rfl
    | node l' v' r' =>
      show Bst.node ((Bst.node l' v' r').map f).removeMin (f v) (r.map f) = _
      rw [ihl]; rfl

theorem bst_removeNode_map (t : Bst V) : (t.map f).removeNode = t.removeNode.map f := by
  cases t with
  | nil => rfl
  | node l v r =>
    cases l with
    | nil => cases r <;> rfl
    | node l' v' r' =>
      cases r with
      | nil => rfl
      | node l2 v2 r2 =>
        show Bst.node ((Bst.node l' v' r').map f) ((l2.map f).minVal (f v2)) ((Bst.node l2 v2 r2).map f).removeMin = _
        rw [bst_removeMin_map, bst_minVal_map]; rfl

theorem bst_remove_map (hf : ∀ a b, cw (f a) (f b) = cv a b) (a : V) (t : Bst V) :
    ((t.map f).remove cw (f a)).2 = (t.remove cv a).2.map f := by
  induction t with
  | nil => rfl
  | node l v r ihl ihr =>
    simp only [Bst.map, Bst.remove, hf]
    split
    · exact bst_removeNode_map (.node l v r)
    · split
      · show Bst.node _ _ _ = Bst.node _ _ _; rw [← ihl]
      · show Bst.node _ _ _ = Bst.node _ _ _; rw [← ihr]

theorem bst_inserts_map (hf : ∀ a b, cw (f a) (f b) = cv a b) (l : List V) (t : Bst V) :
    (t.map f).inserts cw (l.map f) = (t.inserts cv l).map f := by
  induction l generalizing t with
  | nil => rfl
  | cons a l ih =>
    show ((t.map f).insert cw (f a)).inserts cw (l.map f) = ((t.insert cv a).inserts cv l).map f
    rw [bst_insert_map hf, ih]

end tree

section ta
variable [GoFloat F] (σ : Scaling F) {x y : Nat → F}

theorem winTree_scale (h : ∀ j, y j = σ.s (x j)) (p k : Nat) : winTree p y k = (winTree p x k).map σ.s := by
  induction k with
  | zero => rfl
  | succ k ih =>
    simp only [winTree, ih, h, bst_insert_map (cv := compareFloat64) (compare_scale σ),
      bst_remove_map (cv := compareFloat64) (compare_scale σ)]
    split <;> rfl

theorem maxF_scale (h : ∀ j, y j = σ.s (x j)) (p i : Nat) : maxF p y i = σ.s (maxF p x i) := by
  rw [maxF, maxF, winTree_scale σ h, bst_max_map, h]
  cases (winTree p x (i + 1)).max <;> rfl

theorem minF_scale (h : ∀ j, y j = σ.s (x j)) (p i : Nat) : minF p y i = σ.s (minF p x i) := by
  rw [minF, minF, winTree_scale σ h, bst_min_map, h]
  cases (winTree p x (i + 1)).min <;> rfl

theorem pivotTree_scale (h : ∀ j, y j = σ.s (x j)) (l r i : Nat) : pivotTree l r y i = (pivotTree l r x i).map σ.s := by
  rw [pivotTree, pivotTree, ← bst_inserts_map (cv := compareFloat64) (compare_scale σ)]
  have : (tab (l + r + 1) fun j => y (i - r - l + j)) = (tab (l + r + 1) fun j => x (i - r - l + j)).map σ.s := by
    simp only [tab, List.map_map]; exact List.map_congr_left fun j _ => h _
  rw [this]; rfl

theorem pivotHighF_scale (h : ∀ j, y j = σ.s (x j)) (l r i : Nat) : pivotHighF l r y i = σ.s (pivotHighF l r x i) := by
  rw [pivotHighF, pivotHighF, pivotTree_scale σ h, bst_max_map, h]
  split
  · exact σ.zero.symm
  · cases (pivotTree l r x i).max with
    | none => exact σ.zero.symm
    | some m => simp only [Option.map_some]; unit_simp

theorem pivotLowF_scale (h : ∀ j, y j = σ.s (x j)) (l r i : Nat) : pivotLowF l r y i = σ.s (pivotLowF l r x i) := by
  rw [pivotLowF, pivotLowF, pivotTree_scale σ h, bst_min_map, h]
  split
  · exact σ.zero.symm
  · cases (pivotTree l r x i).min with
    | none => exact σ.zero.symm
    | some m => simp only [Option.map_some]; unit_simp

theorem wsum0_scale (h : ∀ j, y j = σ.s (x j)) (k : Nat) : wsum0 y k = σ.s (wsum0 x k) := by
  induction k with
  | zero => exact σ.zero.symm
  | succ k ih => rw [wsum0, wsum0, ih, h]; unit_simp

theorem wmaS_scale (h : ∀ j, y j = σ.s (x j)) (p m : Nat) :
    wmaS p y m = (σ.s (wmaS p x m).1, σ.s (wmaS p x m).2.1, σ.s (wmaS p x m).2.2) := by
  induction m with
  | zero => simp only [wmaS, wsum0_scale σ h, accum_scale σ h, σ.zero]
  | succ m ih => simp only [wmaS, ih, h]; unit_simp

theorem wmaF_scale (h : ∀ j, y j = σ.s (x j)) (p i : Nat) : wmaF p y i = σ.s (wmaF p x i) := by
  simp only [wmaF, wmaS_scale σ h, h]; unit_simp

theorem lrXY0_scale (h : ∀ j, y j = σ.s (x j)) (p k : Nat) : lrXY0 p y k = σ.s (lrXY0 p x k) := by
  induction k with
  | zero => exact σ.zero.symm
  | succ k ih => rw [lrXY0, lrXY0, ih, h]; unit_simp

theorem lrS_scale (h : ∀ j, y j = σ.s (x j)) (p m : Nat) :
    lrS p y m = (σ.s (lrS p x m).1, σ.s (lrS p x m).2) := by
  induction m with
  | zero => simp only [lrS, lrXY0_scale σ h, accum_scale σ h]
  | succ m ih => simp only [lrS, ih, h]; unit_simp

theorem lrSlope_scale (a b c u v : F) : lrSlope a b c (σ.s u) (σ.s v) = σ.s (lrSlope a b c u v) := by
  rw [lrSlope, lrSlope]; unit_simp; rw [σ.div_left]

theorem lrIntercept_scale (a b c u v : F) : lrIntercept a b c (σ.s u) (σ.s v) = σ.s (lrIntercept a b c u v) := by
  rw [lrIntercept, lrIntercept, lrSlope_scale]; unit_simp; rw [σ.div_left]

theorem lrEnd_scale (a b c u v : F) : lrEnd a b c (σ.s u) (σ.s v) = σ.s (lrEnd a b c u v) := by
  rw [lrEnd, lrEnd, lrSlope_scale, lrIntercept_scale]; unit_simp

theorem lrF_end_scale (h : ∀ j, y j = σ.s (x j)) (p i : Nat) : lrF lrEnd p y i = σ.s (lrF lrEnd p x i) := by
  simp only [lrF, lrS_scale σ h, lrEnd_scale]; unit_simp

theorem lsM_scale (n a b u v : F) : lsM n a b (σ.s u) (σ.s v) = σ.s (lsM n a b u v) := by
  rw [lsM, lsM]; unit_simp; rw [σ.div_left]

theorem mlsM_scale (h : ∀ j, y j = σ.s (x j)) (p : Nat) (t : Nat → F) (i : Nat) :
    mlsM p t y i = σ.s (mlsM p t x i) := by
  rw [mlsM, mlsM, runSum_scale σ h,
    runSum_scale σ (x := fun j => t j *. x j) (y := fun j => t j *. y j) (fun j => by rw [h]; unit_simp), lsM_scale]

theorem smoothF_scale (h : ∀ j, y j = σ.s (x j)) (len : Int) (k : Nat) : smoothF len y k = σ.s (smoothF len x k) := by
  induction k with
  | zero => exact σ.zero.symm
  | succ k ih => rw [smoothF, smoothF, ih, h]; unit_simp

theorem ringSum_scale (h : ∀ j, y j = σ.s (x j)) (p k : Nat) : ringSum p y k = σ.s (ringSum p x k) := by
  induction k with
  | zero => exact σ.zero.symm
  | succ k ih => rw [ringSum, ringSum, ih, h, h]; unit_simp

theorem lowF_scale (h : ∀ j, y j = σ.s (x j)) (lo c : Nat) : lowF y lo c = σ.s (lowF x lo c) := by
  induction c with
  | zero => exact h _
  | succ c ih => rw [lowF, lowF, ih, h]; unit_simp

theorem highF_scale (h : ∀ j, y j = σ.s (x j)) (lo c : Nat) : highF y lo c = σ.s (highF x lo c) := by
  induction c with
  | zero => exact h _
  | succ c ih => rw [highF, highF, ih, h]; unit_simp

section hlc
variable {h l c h' l' c' : Nat → F}

theorem trF_scale (hh : ∀ j, h' j = σ.s (h j)) (hl : ∀ j, l' j = σ.s (l j)) (hc : ∀ j, c' j = σ.s (c j)) (i : Nat) :
    trF h' l' c' i = σ.s (trF h l c i) := by
  cases i with
  | zero => exact σ.zero.symm
  | succ i => rw [trF, trF, hh, hl, hc, trStep, trStep]; unit_simp

theorem wilder_scale {st st' : F} {t t' : Nat → F} (hs : st' = σ.s st) (ht : ∀ j, t' j = σ.s (t j)) (p m : Nat) :
    wilder p st' t' m = σ.s (wilder p st t m) := by
  induction m with
  | zero => exact hs
  | succ m ih => rw [wilder, wilder, ih, ht]; unit_simp

theorem atrI_scale (hh : ∀ j, h' j = σ.s (h j)) (hl : ∀ j, l' j = σ.s (l j)) (hc : ∀ j, c' j = σ.s (c j)) (p : Int) (i : Nat) :
    atrI p h' l' c' i = σ.s (atrI p h l c i) := by
  have ht := trF_scale σ hh hl hc
  rw [atrI, atrI, atrF, atrF, ht, wilder_scale σ (rmaF_scale σ ht _ _) ht]; unit_simp

theorem natrI_scale (hh : ∀ j, h' j = σ.s (h j)) (hl : ∀ j, l' j = σ.s (l j)) (hc : ∀ j, c' j = σ.s (c j)) {p : Int}
    (hp : p ≠ 1) (i : Nat) : natrI p h' l' c' i = natrI p h l c i := by
  have ht := trF_scale σ hh hl hc
  rw [natrI, natrI, natrF, natrF, ht, wilder_scale σ (smaF_scale σ ht _ _) ht, hc, if_neg hp, if_neg hp]; unit_simp

theorem stochF_scale (hc : ∀ j, c' j = σ.s (c j)) (hh : ∀ j, h' j = σ.s (h j)) (hl : ∀ j, l' j = σ.s (l j)) (p i : Nat) :
    stochF p c' h' l' i = stochF p c h l i := by
  rw [stochF, stochF, hc, minF_scale σ hl, maxF_scale σ hh, subF_scale, subF_scale, safeDiv_both]

end hlc

/-- RSI away from its absolute cut-off: scaled averages give the same value. -/
theorem rsiStep_scale (gl : F × F) (d : F) :
    rsiStep (σ.s gl.1, σ.s gl.2) (σ.s d) = (σ.s (rsiStep gl d).1, σ.s (rsiStep gl d).2) := by
  simp only [rsiStep]; unit_simp; split <;> rfl

theorem rsiInit_scale (h : ∀ j, y j = σ.s (x j)) (k : Nat) : rsiInit y k = (σ.s (rsiInit x k).1, σ.s (rsiInit x k).2) := by
  induction k with
  | zero => simp only [rsiInit, σ.zero]
  | succ k ih => rw [rsiInit, rsiInit, ih, h, h, σ.sub, rsiStep_scale]

theorem rsiW_scale (h : ∀ j, y j = σ.s (x j)) (p m : Nat) : rsiW p y m = (σ.s (rsiW p x m).1, σ.s (rsiW p x m).2) := by
  induction m with
  | zero => simp only [rsiW, rsiInit_scale σ h]; unit_simp
  | succ m ih =>
    simp only [rsiW, ih, h, σ.sub, σ.mul_left]
    rw [rsiStep_scale σ ((rsiW p x m).1 *. fl ((p : Int) - 1), (rsiW p x m).2 *. fl ((p : Int) - 1))]
    unit_simp

end ta


/-! ## Candle series -/

section series
variable [GoFloat F] (σ τ : Scaling F)

/-- The candle with prices and volume in other units (the turnover follows both). -/
def inUnit (c : Candle F) : Candle F :=
  { c with
    open_ := σ.s c.open_, high := σ.s c.high, low := σ.s c.low, close := σ.s c.close,
    volume := τ.s c.volume, amount := σ.s (τ.s c.amount) }

/-- The series with all prices and volumes in other units. -/
def inUnits (it : Item F) : Item F := { it with candles := it.candles.map (inUnit σ τ) }

/-- Every record is converted by `φ` when the units of the series are changed; a panic stays a panic. -/
def Converts (I : Indicator F) (φ : I.D → I.D) : Prop :=
  ∀ it : Item F, (I.data (inUnits σ τ it)).toOption = (I.data it).toOption.map (List.map φ)

/-- The signals are the same in all units; a panic stays a panic. -/
def SameSignals (I : Strat F) : Prop :=
  ∀ it : Item F, (I.signals (inUnits σ τ it)).toOption = (I.signals it).toOption

variable {σ τ}

theorem converts_of {I : Indicator F} {ok} {G} (hy : Yields I ok G) {φ : I.D → I.D}
    (hG : ∀ x i, G (fun j => inUnit σ τ (x j)) i = φ (G x i)) : Converts σ τ I φ := by
  intro it
  obtain ⟨x, hx⟩ := candles_tab it
  have hx' : (inUnits σ τ it).candles = tab it.candles.length fun j => inUnit σ τ (x j) := by
    conv_lhs => rw [inUnits, hx]
    simp only [tab, List.map_map]; rfl
  by_cases hok : ok it.candles.length
  · rw [(hy _ _ _ hx).1 hok, (hy _ _ _ hx').1 hok]
    simp only [Except.toOption, Option.map_some, tab, List.map_map]
    exact congrArg some (List.map_congr_left fun j _ => hG x j)
  · obtain ⟨p, hp⟩ := (hy _ _ _ hx).2 hok
    obtain ⟨p', hp'⟩ := (hy _ _ _ hx').2 hok
    rw [hp, hp']; rfl

theorem sameSignals_of {I : Strat F} {ok} {f} (hy : Signals I ok f)
    (hf : ∀ x i, f (fun j => inUnit σ τ (x j)) i = f x i) : SameSignals σ τ I := by
  intro it
  obtain ⟨x, hx⟩ := candles_tab it
  have hx' : (inUnits σ τ it).candles = tab it.candles.length fun j => inUnit σ τ (x j) := by
    conv_lhs => rw [inUnits, hx]
    simp only [tab, List.map_map]; rfl
  by_cases hok : ok it.candles.length
  · rw [(hy _ _ _ hx).1 hok, (hy _ _ _ hx').1 hok]
    exact congrArg (fun l => some l) (tab_ext fun j _ => hf x j)
  · obtain ⟨p, hp⟩ := (hy _ _ _ hx).2 hok
    obtain ⟨p', hp'⟩ := (hy _ _ _ hx').2 hok
    rw [hp, hp']; rfl

theorem pairSide_congr {D : Type} {rule : D → D → Side} {g g' : Nat → D} {φ : D → D} (hg : ∀ i, g' i = φ (g i))
    (hr : ∀ a b, rule (φ a) (φ b) = rule a b) (i : Nat) : pairSide rule g' i = pairSide rule g i := by
  cases i with
  | zero => rfl
  | succ i => rw [pairSide, pairSide, hg, hg, hr]

theorem closeSide_congr {D : Type} {rule : D → D → F → F → Side} {g g' : Nat → D} {c c' : Nat → F} {φ : D → D}
    (hg : ∀ i, g' i = φ (g i)) (hc : ∀ i, c' i = σ.s (c i))
    (hr : ∀ a b u v, rule (φ a) (φ b) (σ.s u) (σ.s v) = rule a b u v) (i : Nat) :
    closeSide rule g' c' i = closeSide rule g c i := by
  cases i with
  | zero => rfl
  | succ i => rw [closeSide, closeSide, hg, hg, hc, hc, hr]

end series


/-! ## Closed forms -/

section forms
variable [GoFloat F] {σ τ : Scaling F} {x : Nat → Candle F}

/-- The candles in other units. -/
local notation "x'" => fun j => inUnit σ τ (x j)

theorem cl_unit (j : Nat) : cl (fun j => inUnit σ τ (x j)) j = σ.s (cl x j) := rfl
theorem op_unit (j : Nat) : op (fun j => inUnit σ τ (x j)) j = σ.s (op x j) := rfl
theorem hi_unit (j : Nat) : hi (fun j => inUnit σ τ (x j)) j = σ.s (hi x j) := rfl
theorem lo_unit (j : Nat) : lo (fun j => inUnit σ τ (x j)) j = σ.s (lo x j) := rfl
theorem vo_unit (j : Nat) : vo (fun j => inUnit σ τ (x j)) j = τ.s (vo x j) := rfl
theorem ti_unit (j : Nat) : ti (fun j => inUnit σ τ (x j)) j = ti x j := rfl
theorem bu_unit (j : Nat) : bu (fun j => inUnit σ τ (x j)) j = bu x j := rfl

/-- Rewrites the columns of the converted candles. -/
local macro "cols" : tactic => `(tactic| simp only [cl_unit, op_unit, hi_unit, lo_unit, vo_unit, ti_unit, bu_unit])

theorem trI_unit (i : Nat) : trI x' i = σ.s (trI x i) := by
  simp only [trI]; cols; unit_simp

theorem medF_unit (i : Nat) : medF x' i = σ.s (medF x i) := by
  simp only [medF]; cols; unit_simp

theorem typF_unit (i : Nat) : typF x' i = σ.s (typF x i) := by
  simp only [typF]; cols; unit_simp

theorem difF_unit (a b : Int) (i : Nat) : difF a b x' i = σ.s (difF a b x i) := by
  simp only [difF, emaF_scale σ (cl_unit (σ := σ) (τ := τ) (x := x)), subF_scale]

theorem ppoF_unit (a b : Int) (i : Nat) : ppoF a b x' i = ppoF a b x i := by
  simp only [ppoF, emaF_scale σ (cl_unit (σ := σ) (τ := τ) (x := x)), subF_scale, safeDiv_both]

theorem stochK_unit (p : Int) (i : Nat) : stochK p x' i = stochK p x i :=
  stochF_scale σ cl_unit hi_unit lo_unit _ _

theorem williamsF_unit (p : Int) (i : Nat) : williamsF p x' i = williamsF p x i := by
  simp only [williamsF, maxF_scale σ (hi_unit (σ := σ) (τ := τ) (x := x)),
    minF_scale σ (lo_unit (σ := σ) (τ := τ) (x := x))]
  cols; unit_simp

theorem projHi_unit (p i : Nat) : projHi p x' i = σ.s (projHi p x i) := by
  simp only [projHi, mlsM_scale σ (hi_unit (σ := σ) (τ := τ) (x := x))]; cols; unit_simp

theorem projLo_unit (p i : Nat) : projLo p x' i = σ.s (projLo p x i) := by
  simp only [projLo, mlsM_scale σ (lo_unit (σ := σ) (τ := τ) (x := x))]; cols; unit_simp

theorem projF_unit (p i : Nat) : projF p x' i = projF p x i := by
  simp only [projF, maxF_scale σ (projHi_unit (σ := σ) (τ := τ) (x := x) p),
    minF_scale σ (projLo_unit (σ := σ) (τ := τ) (x := x) p)]
  cols; simp only [subF_scale, σ.mul_left, safeDiv_both]

theorem midHL_unit (p q i : Nat) : midHL p q x' i = σ.s (midHL p q x i) := by
  simp only [midHL, maxF_scale σ (hi_unit (σ := σ) (τ := τ) (x := x)),
    minF_scale σ (lo_unit (σ := σ) (τ := τ) (x := x))]
  unit_simp

theorem adxTR_unit (i : Nat) : adxTR x' i = σ.s (adxTR x i) := by
  cases i with
  | zero => exact σ.zero.symm
  | succ i => simp only [adxTR, ADX.calculateTR]; cols; unit_simp

theorem adxDM_unit (i : Nat) : adxDM x' i = (σ.s (adxDM x i).1, σ.s (adxDM x i).2) := by
  cases i with
  | zero => simp only [adxDM, σ.zero]
  | succ i => simp only [adxDM, ADX.calculateDM]; cols; unit_simp

theorem adxPlus_unit (p len : Int) (i : Nat) : adxPlus p len x' i = adxPlus p len x i := by
  simp only [adxPlus, smoothF_scale σ (adxTR_unit (σ := σ) (τ := τ) (x := x)), smoothF_scale σ
    (x := fun j => (adxDM x j).1) (y := fun j => (adxDM x' j).1) (fun j => by rw [adxDM_unit])]
  unit_simp

theorem adxMinus_unit (p len : Int) (i : Nat) : adxMinus p len x' i = adxMinus p len x i := by
  simp only [adxMinus, smoothF_scale σ (adxTR_unit (σ := σ) (τ := τ) (x := x)), smoothF_scale σ
    (x := fun j => (adxDM x j).2) (y := fun j => (adxDM x' j).2) (fun j => by rw [adxDM_unit])]
  unit_simp

theorem adxDX_unit (p len : Int) (i : Nat) : adxDX p len x' i = adxDX p len x i := by
  simp only [adxDX, adxPlus_unit, adxMinus_unit]

theorem vmPlus_unit (i : Nat) : vmPlus x' i = σ.s (vmPlus x i) := by
  simp only [vmPlus]; cols; unit_simp

theorem vmMinus_unit (i : Nat) : vmMinus x' i = σ.s (vmMinus x i) := by
  simp only [vmMinus]; cols; unit_simp

theorem vmTR_unit (i : Nat) : vmTR x' i = σ.s (vmTR x i) := by
  simp only [vmTR]; cols; unit_simp

theorem viPlus_unit (p i : Nat) : viPlus p x' i = viPlus p x i := by
  simp only [viPlus, ringSum_scale σ (vmPlus_unit (σ := σ) (τ := τ) (x := x)),
    ringSum_scale σ (vmTR_unit (σ := σ) (τ := τ) (x := x))]
  unit_simp

theorem viMinus_unit (p i : Nat) : viMinus p x' i = viMinus p x i := by
  simp only [viMinus, ringSum_scale σ (vmMinus_unit (σ := σ) (τ := τ) (x := x)),
    ringSum_scale σ (vmTR_unit (σ := σ) (τ := τ) (x := x))]
  unit_simp

/-- The state of the supertrend in other units. -/
def ST.St.conv (σ : Scaling F) (s : ST.St F) : ST.St F := ⟨σ.s s.up, σ.s s.dn, s.trend, σ.s s.upb, σ.s s.dnb⟩

theorem nz_scale (a b : F) : Nz (σ.s a) (σ.s b) = σ.s (Nz a b) := by
  simp only [Nz]; unit_simp

theorem ST.step_conv (s : ST.St F) (src band pc c : F) :
    ST.step (s.conv σ) (σ.s src) (σ.s band) (σ.s pc) (σ.s c) = (ST.step s src band pc c).conv σ := by
  simp only [ST.step, ST.St.conv]
  unit_simp
  simp only [nz_scale]
  unit_simp
  split_ifs <;> simp only [σ.zero]

theorem stF_unit (period mult : Int) (i : Nat) : stF period mult true x' i = (stF period mult true x i).conv σ := by
  induction i with
  | zero => simp only [stF, ST.init, ST.St.conv, σ.zero]
  | succ i ih =>
    simp only [stF, ih, stAtr, if_true]
    rw [← ST.step_conv]
    cols
    rw [atrI_scale σ (hi_unit (σ := σ) (τ := τ) (x := x)) lo_unit cl_unit]
    unit_simp

/-- The state of the pivot supertrend in other units. -/
def PPST.St.conv (σ : Scaling F) (s : PPST.St F) : PPST.St F := ⟨σ.s s.center, σ.s s.up, σ.s s.dn, s.trend⟩

theorem PPST.step_conv (s : PPST.St F) (ph pl band pc c : F) :
    PPST.step (s.conv σ) (σ.s ph) (σ.s pl) (σ.s band) (σ.s pc) (σ.s c) = (PPST.step s ph pl band pc c).conv σ := by
  simp only [PPST.step, PPST.St.conv]
  unit_simp

theorem ppstF_unit (period atrPeriod : Int) (factor : F) (i : Nat) :
    ppstF period atrPeriod factor x' i = (ppstF period atrPeriod factor x i).conv σ := by
  induction i with
  | zero => simp only [ppstF, PPST.init, PPST.St.conv, σ.zero]
  | succ i ih =>
    simp only [ppstF, ih]
    rw [← PPST.step_conv]
    cols
    rw [atrI_scale σ (hi_unit (σ := σ) (τ := τ) (x := x)) lo_unit cl_unit,
      pivotHighF_scale σ (hi_unit (σ := σ) (τ := τ) (x := x)), pivotLowF_scale σ (lo_unit (σ := σ) (τ := τ) (x := x))]
    unit_simp

theorem utF_unit (period atrPeriod : Int) (i : Nat) : utF period atrPeriod x' i = σ.s (utF period atrPeriod x i) := by
  induction i with
  | zero => exact σ.zero.symm
  | succ i ih =>
    simp only [utF, ih, UT.step]
    cols
    rw [atrI_scale σ (hi_unit (σ := σ) (τ := τ) (x := x)) lo_unit cl_unit]
    unit_simp

theorem revF_unit (i : Nat) : revF x' i = revF x i := by
  induction i with
  | zero => rfl
  | succ i ih => simp only [revF, ih]; cols; unit_simp

theorem heatF_unit (kind : MAKind) (inc sf : Int) (i : Nat) : heatF kind inc sf x' i = heatF kind inc sf x i := by
  have e : stochF ((i : Int) * inc).toNat (cl x') (hi x') (lo x') = stochF ((i : Int) * inc).toNat (cl x) (hi x) (lo x) :=
    funext fun j => stochF_scale σ cl_unit hi_unit lo_unit _ _
  simp only [heatF, e]

theorem heatSum_unit (kind : MAKind) (inc sf : Int) (i k : Nat) : heatSum kind inc sf x' i k = heatSum kind inc sf x i k := by
  induction k with
  | zero => simp only [heatSum, heatF_unit]
  | succ k ih => simp only [heatSum, heatF_unit, ih]

theorem heatFast_unit (inc sf plot : Int) (kind : MAKind) : heatFast inc sf plot kind x' = heatFast inc sf plot kind x := by
  funext i; simp only [heatFast, heatSum_unit]

theorem adVal_unit (i : Nat) : adVal x' i = τ.s (adVal x i) := by
  simp only [adVal]; cols; unit_simp

theorem adF_unit (i : Nat) : adF x' i = τ.s (adF x i) := by
  induction i with
  | zero =>
    have h0 : τ.s (fl 0 +. fl 0) = fl 0 +. fl 0 := by rw [← τ.add, τ.zero]
    simp only [adF, adVal_unit, τ.isNaN]
    split
    · exact h0.symm
    · rw [τ.zero_add]
  | succ i ih => simp only [adF, adVal_unit, ih]; unit_simp

theorem mfv_unit (i : Nat) : mfv x' i = τ.s (mfv x i) := by
  simp only [mfv]; cols; simp only [subF_scale, safeDiv_both]; unit_simp

theorem nviF_unit (i : Nat) : nviF x' i = nviF x i := by
  induction i with
  | zero => rfl
  | succ i ih => simp only [nviF, ih]; cols; unit_simp

theorem obvF_unit (i : Nat) : obvF x' i = τ.s (obvF x i) := by
  induction i with
  | zero => exact τ.zero.symm
  | succ i ih => simp only [obvF, ih]; cols; unit_simp

theorem vpt1_unit (p i : Nat) : vpt1 p x' i = τ.s (vpt1 p x i) := by
  simp only [vpt1, shiftF_scale σ (cl_unit (σ := σ) (τ := τ) (x := x)) (cl_unit (σ := σ) (τ := τ) (x := x) 0)]
  cols; simp only [subF_scale, safeDiv_both]; unit_simp

end forms

end Verif.Ind
