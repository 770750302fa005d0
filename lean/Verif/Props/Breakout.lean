import Verif.Props.Bands
import Verif.Ind.Trend3
import Mathlib.Data.Nat.Count
import Mathlib.Algebra.Order.Field.Basic
import Mathlib.Tactic.Linarith
import Mathlib.Tactic.Positivity

/-!
# Breakout probabilities (C53, C65)
-/

set_option linter.unusedSectionVars false

namespace Verif.Props
open Verif Verif.Klines Verif.Ta Verif.Ind GoFloat XF

variable {K : Type} [Field K] [LinearOrder K] [IsStrictOrderedRing K]

/-- The bar at index `i`. -/
def bar (bs : List (Bar K)) (i : Nat) : Bar K := bs[i]?.getD ⟨0, 0, 0, 0, 0⟩

section spec
variable (b : Nat → Bar K) (pc : K)

/-- Candle `j` closed above its open. -/
abbrev Green (j : Nat) : Prop := (b j).o < (b j).c
/-- Candle `j` closed below its open. -/
abbrev Red (j : Nat) : Prop := (b j).c < (b j).o
/-- Distance between two levels at the candle after `j`: the given percentage of its close. -/
def levelStep (j : Nat) : K := (b (j + 1)).c * (pc / 100)
/-- The candle after `j` went more than `r` levels above the high of candle `j`. -/
abbrev Above (r j : Nat) : Prop := (b j).h + r * levelStep b pc j < (b (j + 1)).h
/-- The low of the candle after `j` is higher than `r` levels below the low of candle `j`. -/
abbrev Over (r j : Nat) : Prop := (b j).l - r * levelStep b pc j < (b (j + 1)).l

/-- The percentage kept for an event: at each occurrence it is set to the share of occurrences among the `base`
candles so far, and otherwise stays. -/
def share (hit base : Nat → Prop) [DecidablePred hit] [DecidablePred base] : Nat → K
  | 0 => 0
  | k + 1 => if hit k then 100 * ((Nat.count hit (k + 1) : K) / (Nat.count base (k + 1) : K)) else share hit base k

/-- The four percentages of level `r` after `k` candles. -/
def greenUp (r : Nat) : Nat → K := share (fun j => Green b j ∧ Above b pc r j) (Green b)
@[inherit_doc greenUp] def greenDown (r : Nat) : Nat → K := share (fun j => Green b j ∧ Over b pc r j) (Green b)
@[inherit_doc greenUp] def redUp (r : Nat) : Nat → K := share (fun j => Red b j ∧ Above b pc r j) (Red b)
@[inherit_doc greenUp] def redDown (r : Nat) : Nat → K := share (fun j => Red b j ∧ Over b pc r j) (Red b)

/-- The prediction at the candle after `j` is "up": the level-0 percentage for the colour of candle `j` is at least as
large upwards as downwards. -/
abbrev PredictUp (j : Nat) : Prop :=
  if Green b j then greenDown b pc 0 (j + 1) ≤ greenUp b pc 0 (j + 1) else redDown b pc 0 (j + 1) ≤ redUp b pc 0 (j + 1)

instance (j : Nat) : Decidable (PredictUp b pc j) := by unfold PredictUp; infer_instance

/-- The prediction came true: predicting up, or for a candle without range, the high reached the previous high;
otherwise the low reached the previous low. -/
abbrev Won (j : Nat) : Prop :=
  if PredictUp b pc j ∨ (b j).l = (b j).h then (b j).h ≤ (b (j + 1)).h else (b (j + 1)).l ≤ (b j).l

instance : DecidablePred (Won b pc) := fun j => by unfold Won; infer_instance

/-- The matrix row of level `r` after `k` candles. -/
def bpRow (k r : Nat) : BP.Row (XF K) :=
  ⟨Nat.count (fun j => Green b j ∧ Above b pc r j) k, Nat.count (fun j => Green b j ∧ Over b pc r j) k,
   Nat.count (fun j => Red b j ∧ Above b pc r j) k, Nat.count (fun j => Red b j ∧ Over b pc r j) k,
   .fin (greenUp b pc r k), .fin (greenDown b pc r k), .fin (redUp b pc r k), .fin (redDown b pc r k)⟩

/-- The matrices after `k` candles. -/
def bpSt (k : Nat) : BP.St (XF K) :=
  ⟨tab 5 (bpRow b pc k), Nat.count (Green b) k, Nat.count (Red b) k, Nat.count (Won b pc) k,
    (k : Int) - Nat.count (Won b pc) k⟩

end spec

theorem share_bounds (hit base : Nat → Prop) [DecidablePred hit] [DecidablePred base] (hsub : ∀ j, hit j → base j) (k : Nat) :
    0 ≤ (share hit base k : K) ∧ (share hit base k : K) ≤ 100 := by
  induction k with
  | zero => exact ⟨le_refl _, by norm_num [share]⟩
  | succ k ih =>
    rw [share]
    split
    · have h1 : (Nat.count hit (k + 1) : K) ≤ (Nat.count base (k + 1) : K) := by
        exact_mod_cast Nat.count_mono_left (p := hit) (q := base) fun n _ h => hsub n h
      have h2 : (0 : K) ≤ (Nat.count hit (k + 1) : K) := Nat.cast_nonneg _
      have h3 : (Nat.count hit (k + 1) : K) / (Nat.count base (k + 1) : K) ≤ 1 :=
        div_le_one_of_le₀ h1 (Nat.cast_nonneg _)
      have h4 : (0 : K) ≤ (Nat.count hit (k + 1) : K) / (Nat.count base (k + 1) : K) := div_nonneg h2 (Nat.cast_nonneg _)
      constructor
      · positivity
      · linarith
    · exact ih

theorem score_cell {hit base : Nat → Prop} [DecidablePred hit] [DecidablePred base] (hsub : ∀ j, hit j → base j) (k : Nat) :
    (if hit k then (fl ((Nat.count hit k : Int) + 1) /. fl ((Nat.count base (k + 1) : Nat) : Int)) *. fl 100
      else (XF.fin (share hit base k) : XF K)) = .fin (share hit base (k + 1)) := by
  rw [share]
  split
  · next h =>
    have hb := hsub k h
    have h1 : Nat.count base (k + 1) = Nat.count base k + 1 := by rw [Nat.count_succ, if_pos hb]
    have h2 : Nat.count hit (k + 1) = Nat.count hit k + 1 := by rw [Nat.count_succ, if_pos h]
    have h3 : ((Nat.count base k + 1 : Nat) : K) ≠ 0 := by exact_mod_cast Nat.succ_ne_zero (Nat.count base k)
    have e : ((Nat.count hit k : Int) + 1) = ((Nat.count hit k + 1 : Nat) : Int) := by push_cast; rfl
    rw [e, h1, h2, fl_nat, fl_nat, div_fin h3, fl_fin, mul_fin]
    push_cast
    rw [mul_comm]
  · rfl

theorem count_cell {hit : Nat → Prop} [DecidablePred hit] (k : Nat) :
    (if hit k then (Nat.count hit k : Int) + 1 else (Nat.count hit k : Int)) = (Nat.count hit (k + 1) : Nat) := by
  rw [Nat.count_succ]; split <;> simp

theorem score_fin (b : Nat → Bar K) (pc : K) (k r : Nat) :
    BP.score (XF.fin (r * levelStep b pc k)) (decide (Green b k)) (decide (Red b k))
      (Nat.count (Green b) (k + 1) : Nat) (Nat.count (Red b) (k + 1) : Nat)
      (.fin (b (k + 1)).h) (.fin (b k).h) (.fin (b (k + 1)).l) (.fin (b k).l) (bpRow b pc k r) = bpRow b pc (k + 1) r := by
  unfold BP.score bpRow
  simp only [GoFloat.gt, add_fin, sub_fin, lt_fin, ← Bool.decide_and, decide_eq_true_iff]
  congr 1
  · exact count_cell (hit := fun j => Green b j ∧ Above b pc r j) k
  · exact count_cell (hit := fun j => Green b j ∧ Over b pc r j) k
  · exact count_cell (hit := fun j => Red b j ∧ Above b pc r j) k
  · exact count_cell (hit := fun j => Red b j ∧ Over b pc r j) k
  · exact score_cell (hit := fun j => Green b j ∧ Above b pc r j) (base := Green b) (fun _ h => h.1) k
  · exact score_cell (hit := fun j => Green b j ∧ Over b pc r j) (base := Green b) (fun _ h => h.1) k
  · exact score_cell (hit := fun j => Red b j ∧ Above b pc r j) (base := Red b) (fun _ h => h.1) k
  · exact score_cell (hit := fun j => Red b j ∧ Over b pc r j) (base := Red b) (fun _ h => h.1) k

theorem tab5 {α : Type} (f : Nat → α) : tab 5 f = [f 0, f 1, f 2, f 3, f 4] := rfl

theorem green_cell (p : Nat → Prop) [DecidablePred p] (k : Nat) :
    ((Nat.count p k : Nat) : Int) + (if decide (p k) = true then 1 else 0) = (Nat.count p (k + 1) : Nat) := by
  rw [Nat.count_succ]; by_cases h : p k <;> simp [h]

theorem max_eq_fin (a b : K) : (GoFloat.max (XF.fin a) (XF.fin b) ==. XF.fin a) = decide (b ≤ a) := by
  rw [max_fin, eq_fin]
  congr 1
  exact propext max_eq_left_iff

theorem backtest_fin (s : BP.St (XF K)) (h hp l v : K) :
    BP.backtest s (XF.fin h) (.fin hp) (.fin l) (.fin v) =
      if (if v = hp then hp ≤ h else l ≤ v) then { s with win := s.win + 1 } else { s with loss := s.loss + 1 } := by
  unfold BP.backtest
  simp only [eq_fin, GoFloat.ge, le_fin, decide_eq_true_iff]
  by_cases e : v = hp
  · subst e; simp
  · simp [e]

theorem bp_step_fin (b : Nat → Bar K) (pc : K) (n : Int) (t t' : Int) (k : Nat) :
    BP.step (XF.fin pc) n (bpSt b pc k) ⟨t, .fin (b k).o, .fin (b k).h, .fin (b k).l, .fin (b k).c⟩
        ⟨t', .fin (b (k + 1)).o, .fin (b (k + 1)).h, .fin (b (k + 1)).l, .fin (b (k + 1)).c⟩ =
      (bpSt b pc (k + 1),
        ⟨t', BP.lines n (decide (Green b k)) (decide (Red b k)) (.fin (b (k + 1)).h) (.fin (b (k + 1)).l)
            (.fin (levelStep b pc k)) (tab 5 (bpRow b pc (k + 1))),
          .fin (Nat.count (Won b pc) (k + 1)), .fin (((k + 1 : Nat) : K) - Nat.count (Won b pc) (k + 1))⟩) := by
  have h100 : (100 : K) ≠ 0 := by norm_num
  have f0 : (fl 0 : XF K) = .fin 0 := by simp
  have f100 : (fl 100 : XF K) = .fin 100 := by simp
  have estep : XF.fin (b (k + 1)).c *. (XF.fin pc /. fl 100) = XF.fin (levelStep b pc k) := by
    rw [f100, div_fin h100, mul_fin]; rfl
  have hg : decide (Green b k) = (XF.fin (b k).c >. XF.fin (b k).o : Bool) := rfl
  have hr : decide (Red b k) = (XF.fin (b k).c <. XF.fin (b k).o : Bool) := rfl
  have hrows : List.zipWith (fun x => BP.score x (decide (Green b k)) (decide (Red b k)) (Nat.count (Green b) (k + 1) : Nat)
      (Nat.count (Red b) (k + 1) : Nat) (.fin (b (k + 1)).h) (.fin (b k).h) (.fin (b (k + 1)).l) (.fin (b k).l))
      [fl 0, XF.fin (levelStep b pc k), XF.fin (levelStep b pc k) *. fl 2, XF.fin (levelStep b pc k) *. fl 3,
        XF.fin (levelStep b pc k) *. fl 4] (tab 5 (bpRow b pc k)) = tab 5 (bpRow b pc (k + 1)) := by
    have e0 : (fl 0 : XF K) = .fin ((0 : Nat) * levelStep b pc k) := by simp
    have e1 : (XF.fin (levelStep b pc k) : XF K) = .fin ((1 : Nat) * levelStep b pc k) := by simp
    have e2 : (XF.fin (levelStep b pc k) *. fl 2 : XF K) = .fin ((2 : Nat) * levelStep b pc k) := by
      rw [fl_fin, mul_fin, mul_comm]; norm_num
    have e3 : (XF.fin (levelStep b pc k) *. fl 3 : XF K) = .fin ((3 : Nat) * levelStep b pc k) := by
      rw [fl_fin, mul_fin, mul_comm]; norm_num
    have e4 : (XF.fin (levelStep b pc k) *. fl 4 : XF K) = .fin ((4 : Nat) * levelStep b pc k) := by
      rw [fl_fin, mul_fin, mul_comm]; norm_num
    rw [tab5, tab5, e2, e3, e4, e0]
    conv_lhs => rw [e1]
    simp only [List.zipWith_cons_cons, List.zipWith_nil_left, score_fin]
  unfold BP.step
  simp only [estep, ← hg, ← hr]
  have eg : (bpSt b pc k).green + (if decide (Green b k) = true then 1 else 0) = (Nat.count (Green b) (k + 1) : Nat) :=
    green_cell _ k
  have er : (bpSt b pc k).red + (if decide (Red b k) = true then 1 else 0) = (Nat.count (Red b) (k + 1) : Nat) :=
    green_cell _ k
  have erows : (bpSt b pc k).rows = tab 5 (bpRow b pc k) := rfl
  rw [eg, er, erows, hrows]
  have ehead : (tab 5 (bpRow b pc (k + 1))).headD ⟨0, 0, 0, 0, fl 0, fl 0, fl 0, fl 0⟩ = bpRow b pc (k + 1) 0 := rfl
  rw [ehead]
  have ef : ∀ r, (bpRow b pc (k + 1) r).v0 = .fin (greenUp b pc r (k + 1)) ∧
    (bpRow b pc (k + 1) r).v1 = .fin (greenDown b pc r (k + 1)) ∧
    (bpRow b pc (k + 1) r).v2 = .fin (redUp b pc r (k + 1)) ∧
    (bpRow b pc (k + 1) r).v3 = .fin (redDown b pc r (k + 1)) := fun r => ⟨rfl, rfl, rfl, rfl⟩
  simp only [(ef 0).1, (ef 0).2.1, (ef 0).2.2.1, (ef 0).2.2.2, max_eq_fin, backtest_fin, decide_eq_true_iff]
  have key : ∀ (s : BP.St (XF K)), s.win = (Nat.count (Won b pc) k : Nat) → s.loss = (k : Int) - Nat.count (Won b pc) k →
      (if Green b k then
        (if greenDown b pc 0 (k + 1) ≤ greenUp b pc 0 (k + 1) then
          (if (if (b k).h = (b k).h then (b k).h ≤ (b (k + 1)).h else (b (k + 1)).l ≤ (b k).h) then
            { s with win := s.win + 1 } else { s with loss := s.loss + 1 })
         else
          (if (if (b k).l = (b k).h then (b k).h ≤ (b (k + 1)).h else (b (k + 1)).l ≤ (b k).l) then
            { s with win := s.win + 1 } else { s with loss := s.loss + 1 }))
       else
        (if redDown b pc 0 (k + 1) ≤ redUp b pc 0 (k + 1) then
          (if (if (b k).h = (b k).h then (b k).h ≤ (b (k + 1)).h else (b (k + 1)).l ≤ (b k).h) then
            { s with win := s.win + 1 } else { s with loss := s.loss + 1 })
         else
          (if (if (b k).l = (b k).h then (b k).h ≤ (b (k + 1)).h else (b (k + 1)).l ≤ (b k).l) then
            { s with win := s.win + 1 } else { s with loss := s.loss + 1 }))) =
        { s with win := (Nat.count (Won b pc) (k + 1) : Nat),
                 loss := ((k + 1 : Nat) : Int) - Nat.count (Won b pc) (k + 1) } := by
    intro s hw hl
    have e : (if Green b k then
        (if greenDown b pc 0 (k + 1) ≤ greenUp b pc 0 (k + 1) then
          (if (if (b k).h = (b k).h then (b k).h ≤ (b (k + 1)).h else (b (k + 1)).l ≤ (b k).h) then
            { s with win := s.win + 1 } else { s with loss := s.loss + 1 })
         else
          (if (if (b k).l = (b k).h then (b k).h ≤ (b (k + 1)).h else (b (k + 1)).l ≤ (b k).l) then
            { s with win := s.win + 1 } else { s with loss := s.loss + 1 }))
       else
        (if redDown b pc 0 (k + 1) ≤ redUp b pc 0 (k + 1) then
          (if (if (b k).h = (b k).h then (b k).h ≤ (b (k + 1)).h else (b (k + 1)).l ≤ (b k).h) then
            { s with win := s.win + 1 } else { s with loss := s.loss + 1 })
         else
          (if (if (b k).l = (b k).h then (b k).h ≤ (b (k + 1)).h else (b (k + 1)).l ≤ (b k).l) then
            { s with win := s.win + 1 } else { s with loss := s.loss + 1 }))) =
        if Won b pc k then { s with win := s.win + 1 } else { s with loss := s.loss + 1 } := by
      unfold Won PredictUp
      by_cases h1 : Green b k
      · simp only [h1, if_true]
        by_cases h2 : greenDown b pc 0 (k + 1) ≤ greenUp b pc 0 (k + 1)
        · simp only [h2, if_true, true_or]
        · simp only [h2, if_false, false_or]
      · simp only [h1, if_false]
        by_cases h2 : redDown b pc 0 (k + 1) ≤ redUp b pc 0 (k + 1)
        · simp only [h2, if_true, true_or]
        · simp only [h2, if_false, false_or]
    rw [e, Nat.count_succ]
    by_cases h : Won b pc k
    · rw [if_pos h, if_pos h, hw]
      obtain ⟨rows, g, r, w, l⟩ := s
      simp only at hl
      subst hl
      congr 1
      push_cast; ring
    · rw [if_neg h, if_neg h, hl]
      obtain ⟨rows, g, r, w, l⟩ := s
      simp only at hw
      subst hw
      congr 1
      push_cast; ring
  have hk := key ⟨tab 5 (bpRow b pc (k + 1)), (Nat.count (Green b) (k + 1) : Nat), (Nat.count (Red b) (k + 1) : Nat),
    (bpSt b pc k).win, (bpSt b pc k).loss⟩ rfl rfl
  simp only at hk
  rw [hk]
  refine Prod.ext rfl ?_
  show BP.Data.mk _ _ _ _ = BP.Data.mk _ _ _ _
  congr 1
  · exact fl_nat _
  · show (fl (((k + 1 : Nat) : Int) - (Nat.count (Won b pc) (k + 1) : Nat)) : XF K) = _
    rw [fl_fin]; push_cast; rfl

theorem bpF_fin {n : Nat} {x : Nat → Candle (XF K)} {b : Nat → Bar K} (hc : Cols n x b) (pc : K) (m : Int) (k : Nat) :
    bpF (XF.fin pc) m x k = bpSt b pc k := by
  induction k with
  | zero =>
    show BP.init = _
    have f0 : (fl 0 : XF K) = .fin 0 := by simp
    rw [BP.init, f0, bpSt, tab5]
    simp only [bpRow, greenUp, greenDown, redUp, redDown, share, Nat.count_zero, List.replicate]
    rfl
  | succ k ih =>
    rw [bpF, ih, BP.bar, BP.bar, hc.op, hc.hi, hc.lo, hc.cl]
    exact congrArg Prod.fst (bp_step_fin b pc _ _ _ k)

theorem bar_eq {bs : List (Bar K)} {b : Nat → Bar K} (hbs : bs = tab bs.length b)
    (h0 : ∀ i, bs.length ≤ i → b i = ⟨0, 0, 0, 0, 0⟩) : b = bar bs := by
  funext i
  unfold bar
  by_cases hi : i < bs.length
  · conv_rhs => rw [hbs]
    rw [tab_getElem?_lt hi]; rfl
  · rw [h0 i (by omega), List.getElem?_eq_none (by omega)]; rfl

/-- A level that is not reported. -/
def noLine : BP.Line (XF K) := ⟨.fin 0, .fin 0, false⟩

/-- C53: `NumberOfLines` is between 1 and 5 whatever is asked for, and is what was asked for when that is allowed. -/
theorem C53_line_count (n : Int) : 1 ≤ BP.clamp n ∧ BP.clamp n ≤ 5 ∧ (1 ≤ n → n ≤ 5 → BP.clamp n = n) := by
  unfold BP.clamp
  refine ⟨?_, ?_, fun h1 h2 => ?_⟩ <;> split <;> (try split) <;> omega

/-- C53: for every candle after the first, with `b` the bars of the series:
* `Win` is the number of predictions so far that came true, `Win + Loss` is the number of candles before;
* the list has five upper and five lower places; those from `NumberOfLines` on are empty;
* place `r` before that is filled exactly when the previous candle had a colour and both percentages kept for that colour
  are above 0; it then shows the level `r` steps above the high (below the low), going up (not up), with these
  percentages, and is empty otherwise;
* every percentage lies between 0 and 100. -/
theorem C53_breakout {pc : K} {n : Int} {it : Item (XF K)} {bs : List (Bar K)} (hb : Holds it bs)
    {d : List (BP.Data (XF K))} (hd : (BP (XF.fin pc) n).data it = .ok d) :
    d.length = bs.length ∧ ∀ (i : Nat) (v : BP.Data (XF K)), d[i + 1]? = some v →
      let b := bar bs
      let won := Nat.count (Won b pc) (i + 1)
      won ≤ i + 1 ∧ v.win = .fin (won : K) ∧ v.loss = .fin ((i + 1 - won : Nat) : K) ∧ v.list.length = 10 ∧
      ∀ r : Nat, r < 5 → ∃ up down, v.list[r]? = some up ∧ v.list[5 + r]? = some down ∧
        let shown := (r : Int) < BP.clamp n ∧
          (Green b i ∧ 0 < greenUp b pc r (i + 1) ∧ 0 < greenDown b pc r (i + 1) ∨
            Red b i ∧ 0 < redUp b pc r (i + 1) ∧ 0 < redDown b pc r (i + 1))
        (¬ shown → up = noLine ∧ down = noLine) ∧
        (shown → ∃ pu pd : K,
          up = ⟨.fin ((b (i + 1)).h + levelStep b pc i * r), .fin pu, true⟩ ∧
          down = ⟨.fin ((b (i + 1)).l - levelStep b pc i * r), .fin pd, false⟩ ∧
          0 ≤ pu ∧ pu ≤ 100 ∧ 0 ≤ pd ∧ pd ≤ 100 ∧
          (Green b i ∧ pu = greenUp b pc r (i + 1) ∧ pd = greenDown b pc r (i + 1) ∨
            Red b i ∧ pu = redUp b pc r (i + 1) ∧ pd = redDown b pc r (i + 1))) := by
  obtain ⟨x, b, hx, hbs, hc, h0⟩ := hb.cols₀
  obtain ⟨-, rfl⟩ := yields_inv (BP.makes (XF.fin pc) n).yields hx hd
  have eb := bar_eq hbs h0
  refine ⟨tab_length _ _, fun i v hv => ?_⟩
  rw [← eb]
  intro b' won
  have hi : i + 1 < bs.length := by simpa using (List.getElem?_eq_some_iff.mp hv).1
  rw [tab_getElem?_lt hi, BP.out, bpF_fin hc, BP.bar, BP.bar, hc.op, hc.hi, hc.lo, hc.cl] at hv
  have hs := congrArg Prod.snd (bp_step_fin b pc (BP.clamp n) (ti x i) (ti x (i + 1)) i)
  cases (Option.some.inj hv).symm.trans hs
  have hwon : won ≤ i + 1 := Nat.count_le _
  refine ⟨hwon, rfl, ?_, rfl, fun r hr => ?_⟩
  · show XF.fin _ = XF.fin _
    rw [Nat.cast_sub hwon]
  · have f0 : (fl 0 : XF K) = .fin 0 := by simp
    have hfr : (fl (r : Int) : XF K) = .fin (r : K) := fl_nat r
    have hrow : (tab 5 (bpRow b pc (i + 1)))[r]? = some (bpRow b pc (i + 1) r) := tab_getElem?_lt hr
    simp only [BP.lines]
    rw [List.getElem?_append_left (by simpa using hr), List.getElem?_append_right (by simp), tab_length,
      Nat.add_sub_cancel_left]
    simp only [tab_getElem?_lt hr, f0]
    refine ⟨_, _, rfl, rfl, ?_⟩
    have key : ∀ (A : Prop) (P Q : Prop), (A ↔ (r : Int) < BP.clamp n ∧
          (Green b i ∧ 0 < greenUp b pc r (i + 1) ∧ 0 < greenDown b pc r (i + 1) ∨
            Red b i ∧ 0 < redUp b pc r (i + 1) ∧ 0 < redDown b pc r (i + 1))) → (¬ A → P) ∧ (A → Q) → (¬ ((r : Int) < BP.clamp n ∧
          (Green b i ∧ 0 < greenUp b pc r (i + 1) ∧ 0 < greenDown b pc r (i + 1) ∨
            Red b i ∧ 0 < redUp b pc r (i + 1) ∧ 0 < redDown b pc r (i + 1))) → P) ∧ (((r : Int) < BP.clamp n ∧
          (Green b i ∧ 0 < greenUp b pc r (i + 1) ∧ 0 < greenDown b pc r (i + 1) ∨
            Red b i ∧ 0 < redUp b pc r (i + 1) ∧ 0 < redDown b pc r (i + 1))) → Q) := by
      intro A P Q h h'; rw [← h]; exact h'
    by_cases hn : (r : Int) < BP.clamp n
    · refine key (Green b i ∧ 0 < Min.min (greenUp b pc r (i + 1)) (greenDown b pc r (i + 1)) ∨
          Red b i ∧ 0 < Min.min (redUp b pc r (i + 1)) (redDown b pc r (i + 1))) _ _
        (by rw [lt_min_iff, lt_min_iff]; exact (and_iff_right hn).symm) ?_
      rw [if_pos hn]
      simp only [Option.bind_some, BP.line, bpRow, min_fin, GoFloat.gt, f0, lt_fin, ← Bool.decide_and, ← Bool.decide_or,
        decide_eq_true_iff, hfr, mul_fin, add_fin, sub_fin]
      refine ⟨fun hcond => ?_, fun hcond => ?_⟩
      · rw [if_neg hcond]; exact ⟨rfl, rfl⟩
      · rw [if_pos hcond]
        by_cases hg : Green b i
        · simp only [hg, if_true]
          exact ⟨_, _, rfl, rfl, (share_bounds _ _ (fun _ h => h.1) _).1, (share_bounds _ _ (fun _ h => h.1) _).2,
            (share_bounds _ _ (fun _ h => h.1) _).1, (share_bounds _ _ (fun _ h => h.1) _).2, Or.inl ⟨hg, rfl, rfl⟩⟩
        · have hr : Red b i := by
            rcases hcond with h | h
            · exact absurd h.1 hg
            · exact h.1
          simp only [hg, if_false]
          exact ⟨_, _, rfl, rfl, (share_bounds _ _ (fun _ h => h.1) _).1, (share_bounds _ _ (fun _ h => h.1) _).2,
            (share_bounds _ _ (fun _ h => h.1) _).1, (share_bounds _ _ (fun _ h => h.1) _).2, Or.inr ⟨hr, rfl, rfl⟩⟩
    · rw [if_neg hn]
      exact ⟨fun _ => ⟨rfl, rfl⟩, fun h => absurd h.1 hn⟩

/-- Three rising candles and one falling back. -/
def riseBars : List (Bar ℚ) := [⟨1, 2, 1, 2, 0⟩, ⟨2, 3, 2, 3, 0⟩, ⟨3, 4, 3, 4, 0⟩, ⟨4, 4, 3, 3, 0⟩]

example : Holds (barItem riseBars) riseBars := holds_barItem _

/-- The records for `riseBars` with levels at steps of one per cent. -/
def riseData (n : Int) : List (BP.Data (XF ℚ)) := (((BP (XF.fin (1 : ℚ)) n).data (barItem riseBars)).toOption).getD []

theorem riseData_eq (n : Int) : (BP (XF.fin (1 : ℚ)) n).data (barItem riseBars) = .ok (riseData n) := by
  obtain ⟨x, b, hx, -⟩ := (holds_barItem riseBars).cols
  have hd := ((BP.makes (XF.fin (1 : ℚ)) n).yields _ _ _ hx).1 trivial
  rw [riseData, hd]; rfl

example : (riseData 2).map (fun v => (v.win, v.loss, (v.list.map fun l => (l.price, l.per)).take 2)) =
    [(.fin 0, .fin 0, []), (.fin 1, .fin 0, [(.fin 3, .fin 100), (.fin (303/100), .fin 100)]),
      (.fin 2, .fin 0, [(.fin 4, .fin 100), (.fin (404/100), .fin 100)]),
      (.fin 3, .fin 0, [(.fin 4, .fin 100), (.fin (403/100), .fin 100)])] := by decide +kernel

/-! ## C65 -/

/-- The share, in per cent, of the `base` candles among the first `k` at which `hit` happened. -/
def rate (hit base : Nat → Prop) [DecidablePred hit] [DecidablePred base] (k : Nat) : K :=
  100 * ((Nat.count hit k : K) / (Nat.count base k : K))

theorem share_hit {hit base : Nat → Prop} [DecidablePred hit] [DecidablePred base] {k : Nat} (h : hit k) :
    (share hit base (k + 1) : K) = rate hit base (k + 1) := by
  rw [share, if_pos h]; rfl

/-- C65, the part that holds: the percentage shown at the upper level `r` is the hit rate of that level among the
candles of the same colour at every candle that itself went beyond the level. Missing: the other candles, where an
old rate is shown (`C65_stale_refuted`), and the lower levels (`C65_lower_refuted`). -/
theorem C65_hit_rate_partial {pc : K} {n : Int} {it : Item (XF K)} {bs : List (Bar K)} (hb : Holds it bs)
    {d : List (BP.Data (XF K))} (hd : (BP (XF.fin pc) n).data it = .ok d) (i r : Nat) (v : BP.Data (XF K))
    (hv : d[i + 1]? = some v) (hr : r < 5) (line : BP.Line (XF K)) (hl : v.list[r]? = some line) (hne : line ≠ noLine)
    (habove : Above (bar bs) pc r i) :
    line.per = .fin (if Green (bar bs) i then rate (fun j => Green (bar bs) j ∧ Above (bar bs) pc r j) (Green (bar bs)) (i + 1)
      else rate (fun j => Red (bar bs) j ∧ Above (bar bs) pc r j) (Red (bar bs)) (i + 1)) := by
  obtain ⟨-, h⟩ := C53_breakout hb hd
  obtain ⟨-, -, -, -, h⟩ := h i v hv
  obtain ⟨up, down, h1, -, h0, h2⟩ := h r hr
  rw [hl] at h1
  cases h1
  by_cases hs : (r : Int) < BP.clamp n ∧
      (Green (bar bs) i ∧ 0 < greenUp (bar bs) pc r (i + 1) ∧ 0 < greenDown (bar bs) pc r (i + 1) ∨
        Red (bar bs) i ∧ 0 < redUp (bar bs) pc r (i + 1) ∧ 0 < redDown (bar bs) pc r (i + 1))
  case neg => exact absurd (h0 hs).1 hne
  case pos =>
    obtain ⟨pu, pd, h2, -, -, -, -, -, h3⟩ := h2 hs
    subst h2
    rcases h3 with ⟨hg, h3, -⟩ | ⟨hr', h3, -⟩
    · rw [if_pos hg, h3]
      exact congrArg XF.fin (share_hit (hit := fun j => Green (bar bs) j ∧ Above (bar bs) pc r j) ⟨hg, habove⟩)
    · rw [if_neg (not_lt_of_gt hr'), h3]
      exact congrArg XF.fin (share_hit (hit := fun j => Red (bar bs) j ∧ Above (bar bs) pc r j) ⟨hr', habove⟩)

/-- The third rising candle goes beyond the high of the second and shows its level. -/
example : ∃ v line, (riseData 1)[2]? = some v ∧ v.list[0]? = some line ∧ line ≠ noLine ∧ Above (bar riseBars) 1 0 1 :=
  ⟨_, _, rfl, rfl, by decide +kernel, by decide +kernel⟩

/-- C65 fails at the upper levels: the last of the four rising candles does not go beyond the previous high, so the hit
rate is two out of three, but 100 per cent is shown. -/
theorem C65_stale_refuted : ∃ (d : List (BP.Data (XF ℚ))) (v : BP.Data (XF ℚ)) (line : BP.Line (XF ℚ)),
    (BP (XF.fin (1 : ℚ)) 1).data (barItem riseBars) = .ok d ∧ d[3]? = some v ∧
    v.list[0]? = some line ∧ line.up = true ∧ line.per = .fin 100 ∧
    (rate (fun j => Green (bar riseBars) j ∧ Above (bar riseBars) 1 0 j) (Green (bar riseBars)) 3 : ℚ) = 200 / 3 := by
  refine ⟨riseData 1, _, _, riseData_eq 1, rfl, rfl, by decide +kernel, by decide +kernel, by decide +kernel⟩

/-- C65 fails at the lower levels: no candle of the series goes below the low of the candle before it, but the level at
the low is shown with 100 per cent. -/
theorem C65_lower_refuted : ∃ (d : List (BP.Data (XF ℚ))) (v : BP.Data (XF ℚ)) (line : BP.Line (XF ℚ)),
    (BP (XF.fin (1 : ℚ)) 1).data (barItem riseBars) = .ok d ∧ d[2]? = some v ∧
    v.list[5]? = some line ∧ line.price = .fin 3 ∧ line.per = .fin 100 ∧
    ∀ j, j + 1 < riseBars.length → ¬ (bar riseBars (j + 1)).l < (bar riseBars j).l := by
  refine ⟨riseData 1, _, _, riseData_eq 1, rfl, rfl, by decide +kernel, by decide +kernel, ?_⟩
  have : ∀ j, j < 3 → ¬ (bar riseBars (j + 1)).l < (bar riseBars j).l := by decide +kernel
  exact fun j hj => this j (Nat.lt_of_succ_lt_succ hj)

end Verif.Props
