import Verif.Props.Directional
import Verif.Props.WindowLines
import Verif.Props.Lines
import Verif.Props.F64Base
import Verif.Ind.Signals

/-!
# What an indicator remembers of old candles (C115)

Two series with a common tail, for example the same market with more or less history loaded, or with an old candle
corrected. The window indicators agree on the tail after a fixed number of candles.
-/

set_option linter.unusedSectionVars false

namespace Verif.Props
open Verif Verif.Klines Verif.Ta Verif.Ind GoFloat XF

/-! ## Vocabulary -/

section vocabulary
variable {F : Type}

/-- From candle `k` of the one and candle `k'` of the other on, the two series are the same. -/
def SameTail (it it' : Item F) (k k' : Nat) : Prop := it.candles.drop k = it'.candles.drop k'

/-- After `w` candles of a common tail the records are the same. -/
def Forgets [GoFloat F] (I : Indicator F) (fine : Item F → Prop) (w : Nat) : Prop :=
  ∀ (it it' : Item F) (k k' : Nat) (d d' : List I.D), fine it → fine it' → SameTail it it' k k' →
    I.data it = .ok d → I.data it' = .ok d' → d.drop (k + w) = d'.drop (k' + w)

/-- After `w` candles of a common tail the signals are the same. -/
def ForgetsSides [GoFloat F] (I : Strat F) (fine : Item F → Prop) (w : Nat) : Prop :=
  ∀ (it it' : Item F) (k k' : Nat) (s s' : List Side), fine it → fine it' → SameTail it it' k k' →
    I.signals it = .ok s → I.signals it' = .ok s' → s.drop (k + w) = s'.drop (k' + w)

end vocabulary

/-! ## Functions of a window -/

section local_
variable {A B C : Type} {P : (Nat → A) → Prop} {Q : (Nat → B) → Prop} {w v : Nat}

/-- The value of `f` at a place is determined by the arguments at this place and the `w` places before. -/
def Local (P : (Nat → A) → Prop) (w : Nat) (f : (Nat → A) → Nat → B) : Prop :=
  ∀ x x', P x → P x' → ∀ i i', w ≤ i → w ≤ i' → (∀ j ≤ w, x (i - j) = x' (i' - j)) → f x i = f x' i'

theorem Local.mono {f : (Nat → A) → Nat → B} (h : Local P w f) (hw : w ≤ v) : Local P v f :=
  fun x x' hx hx' i i' hi hi' hj => h x x' hx hx' i i' (by omega) (by omega) fun j h' => hj j (by omega)

theorem Local.comp {f : (Nat → A) → Nat → B} {g : (Nat → B) → Nat → C} (hf : Local P w f) (hg : Local Q v g)
    (hq : ∀ x, P x → Q (f x)) : Local P (w + v) (fun x => g (f x)) :=
  fun x x' hx hx' i i' hi hi' hj => hg _ _ (hq x hx) (hq x' hx') i i' (by omega) (by omega) fun j h' =>
    hf x x' hx hx' _ _ (by omega) (by omega) fun l hl => by
      have := hj (j + l) (by omega)
      rwa [show i - (j + l) = i - j - l by omega, show i' - (j + l) = i' - j - l by omega] at this

theorem Local.point (f : A → B) : Local P w (fun x i => f (x i)) :=
  fun x x' _ _ i i' _ _ hj => congrArg f (by simpa using hj 0 (Nat.zero_le _))

theorem Local.const (c : B) : Local P w (fun _ _ => c) := fun _ _ _ _ _ _ _ _ _ => rfl

theorem Local.map₂ {B' : Type} {f : (Nat → A) → Nat → B} {g : (Nat → A) → Nat → B'} (op : B → B' → C)
    (hf : Local P w f) (hg : Local P w g) : Local P w (fun x i => op (f x i) (g x i)) :=
  fun x x' hx hx' i i' hi hi' hj => by
    simp only [hf x x' hx hx' i i' hi hi' hj, hg x x' hx hx' i i' hi hi' hj]

theorem Local.map {f : (Nat → A) → Nat → B} (op : B → C) (hf : Local P w f) : Local P w (fun x i => op (f x i)) :=
  fun x x' hx hx' i i' hi hi' hj => congrArg op (hf x x' hx hx' i i' hi hi' hj)

/-- The value `s` places earlier. -/
theorem Local.back {f : (Nat → A) → Nat → B} (s : Nat) (hf : Local P w f) : Local P (w + s) (fun x i => f x (i - s)) :=
  fun x x' hx hx' i i' hi hi' hj => hf x x' hx hx' _ _ (by omega) (by omega) fun j h' => by
    have := hj (s + j) (by omega)
    rwa [show i - (s + j) = i - s - j by omega, show i' - (s + j) = i' - s - j by omega] at this

/-- From some place on it is enough to know `f` there. -/
theorem Local.late {f g : (Nat → A) → Nat → B} (hf : Local P w f) (h : ∀ x, P x → ∀ i, w ≤ i → g x i = f x i) :
    Local P w g := fun x x' hx hx' i i' hi hi' hj => by
  rw [h x hx i hi, h x' hx' i' hi', hf x x' hx hx' i i' hi hi' hj]

end local_

section sides
variable {F : Type} [GoFloat F] {P : (Nat → Candle F) → Prop} {w : Nat}

theorem Local.pair {D : Type} {G : (Nat → Candle F) → Nat → D} (rule : D → D → Side) (h : Local P w G) :
    Local P (w + 1) (fun x => pairSide rule (G x)) := by
  refine Local.late (Local.map₂ rule (h.back 1) (h.mono (Nat.le_succ w))) fun x _ i hi => ?_
  obtain ⟨i, rfl⟩ : ∃ m, i = m + 1 := ⟨i - 1, by omega⟩
  rfl

theorem Local.pairClose {D : Type} {G : (Nat → Candle F) → Nat → D} (rule : D → D → F → F → Side) (h : Local P w G) :
    Local P (w + 1) (fun x => closeSide rule (G x) (cl x)) := by
  have hc : Local P w (fun x i => cl x i) := Local.point _
  refine Local.late (Local.map₂ (fun p q => rule p.1 q.1 p.2 q.2)
    (Local.map₂ Prod.mk (h.back 1) (hc.back 1))
    (Local.map₂ Prod.mk (h.mono (Nat.le_succ w)) (hc.mono (Nat.le_succ w)))) fun x _ i hi => ?_
  obtain ⟨i, rfl⟩ : ∃ m, i = m + 1 := ⟨i - 1, by omega⟩
  rfl

/-- A series whose candles are the first values of a sequence with the property. -/
def Seq (P : (Nat → Candle F) → Prop) (it : Item F) : Prop := ∃ x, it.candles = tab it.candles.length x ∧ P x

theorem drop_of_local {B : Type} {it it' : Item F} {k k' : Nat} {f : (Nat → Candle F) → Nat → B} (hf : Local P w f)
    {x x' : Nat → Candle F} (hx : it.candles = tab it.candles.length x) (hx' : it'.candles = tab it'.candles.length x')
    (px : P x) (px' : P x') (ht : SameTail it it' k k') :
    (tab it.candles.length (f x)).drop (k + w) = (tab it'.candles.length (f x')).drop (k' + w) := by
  have hlen := congrArg List.length ht
  simp only [List.length_drop] at hlen
  refine List.ext_getElem? fun i => ?_
  rw [List.getElem?_drop, List.getElem?_drop]
  by_cases hi : k + w + i < it.candles.length
  · rw [tab_getElem?_lt hi, tab_getElem?_lt (by omega)]
    refine congrArg some (hf x x' px px' _ _ (by omega) (by omega) fun j hj => ?_)
    have h := congrArg (fun l => l[w + i - j]?) ht
    simp only [List.getElem?_drop] at h
    rw [hx, hx', tab_getElem?_lt (by omega), tab_getElem?_lt (by omega)] at h
    rw [show k + w + i - j = k + (w + i - j) by omega, show k' + w + i - j = k' + (w + i - j) by omega]
    exact Option.some.inj h
  · rw [List.getElem?_eq_none (by rw [tab_length]; omega), List.getElem?_eq_none (by rw [tab_length]; omega)]

theorem forgets_of {I : Indicator F} {ok} {G} (hy : Yields I ok G) (hG : Local P w G) : Forgets I (Seq P) w := by
  rintro it it' k k' d d' ⟨x, hx, px⟩ ⟨x', hx', px'⟩ ht hd hd'
  rw [(yields_inv hy hx hd).2, (yields_inv hy hx' hd').2]
  exact drop_of_local hG hx hx' px px' ht

theorem forgetsSides_of {I : Strat F} {ok} {f} (hy : Signals I ok f) (hf : Local P w f) :
    ForgetsSides I (Seq P) w := by
  rintro it it' k k' d d' ⟨x, hx, px⟩ ⟨x', hx', px'⟩ ht hd hd'
  rw [(signals_inv hy hx hd).2, (signals_inv hy hx' hd').2]
  exact drop_of_local hf hx hx' px px' ht

theorem Forgets.fine {I : Indicator F} {p q : Item F → Prop} (h : Forgets I p w) (hq : ∀ it, q it → p it) :
    Forgets I q w := fun it it' k k' d d' h1 h2 => h it it' k k' d d' (hq _ h1) (hq _ h2)

theorem ForgetsSides.fine {I : Strat F} {p q : Item F → Prop} (h : ForgetsSides I p w) (hq : ∀ it, q it → p it) :
    ForgetsSides I q w := fun it it' k k' d d' h1 h2 => h it it' k k' d d' (hq _ h1) (hq _ h2)

end sides

/-! ## Whatever the numbers are -/

section any
variable {F : Type} [GoFloat F]

theorem accum_congr' {x x' : Nat → F} {lo lo' : Nat} (c : Nat) (h : ∀ j < c, x (lo + j) = x' (lo' + j)) :
    accum x lo c = accum x' lo' c := by
  induction c with
  | zero => rfl
  | succ c ih => rw [accum, accum, ih fun j hj => h j (by omega), h c (by omega)]

theorem window_congr {A : Type} {p : Nat} {x x' : Nat → A} {i i' : Nat} (hi : p - 1 ≤ i) (hi' : p - 1 ≤ i')
    (hj : ∀ j ≤ p - 1, x (i - j) = x' (i' - j)) : ∀ j < p, x (i + 1 - p + j) = x' (i' + 1 - p + j) := fun j h => by
  have := hj (p - 1 - j) (by omega)
  rwa [show i - (p - 1 - j) = i + 1 - p + j by omega, show i' - (p - 1 - j) = i' + 1 - p + j by omega] at this

theorem Local.ma {P : (Nat → F) → Prop} {p : Nat} (hp : 0 < p) : Local P (p - 1) (fun x i => maF p x i) := by
  intro x x' _ _ i i' hi hi' hj
  show maF p x i = maF p x' i'
  rw [maF, maF, if_neg (by omega), if_neg (by omega), accum_congr' p (window_congr hi hi' hj)]

theorem Local.dev {P : (Nat → F) → Prop} {p : Nat} (hp : 0 < p) : Local P (p - 1) (fun x i => devF p x i) := by
  intro x x' _ _ i i' hi hi' hj
  have h := window_congr hi hi' hj
  show devF p x i = devF p x' i'
  rw [devF, devF, if_neg (by omega), if_neg (by omega), accum_congr' p h]
  exact congrArg (· /. fl p) (accum_congr' p fun j hj => by simp only [h j hj])

theorem Local.aiCci {P : (Nat → F) → Prop} {p : Nat} (hp : 0 < p) : Local P (p - 1) (fun x i => aiCciF p x i) :=
  Local.map₂ (fun d (c : F × F) => if d ==. fl 0 then fl 0 else (c.1 -. c.2) /. (lit (15 / 1000) *. d)) (Local.dev hp)
    (Local.map₂ Prod.mk (Local.point id) (Local.ma hp))

theorem Local.time {P : (Nat → Candle F) → Prop} {w : Nat} : Local P w (fun x i => ti x i) := Local.point _

/-- A column of the candles. -/
theorem Local.col {C : Type} {P : (Nat → Candle F) → Prop} {w : Nat} {g : (Nat → F) → Nat → C}
    (f : Candle F → F) (hg : Local (fun _ => True) w g) : Local P w (fun x => g fun i => f (x i)) := by
  have := Local.comp (P := P) (w := 0) (f := fun x i => f (x i)) (Local.point f) hg fun _ _ => trivial
  rwa [Nat.zero_add] at this

/-- **C115**, `AiCoinCCI` in any arithmetic, float64 included: it adds up every window afresh, so a candle is
forgotten completely when it leaves the window. -/
theorem C115_aicoin_any {p : Nat} (hp : 0 < p) :
    Forgets (AiCCI (F := F) p).toIndicator (fun _ => True) (p - 1) ∧
    ForgetsSides (AiCCI (F := F) p) (fun _ => True) p := by
  have h : Local (fun _ => True) (p - 1) (AiCCI.out (F := F) p) :=
    Local.map₂ Rec.mk Local.time (Local.col (·.close) (Local.aiCci hp))
  have hall : ∀ it : Item F, True → Seq (fun _ => True) it := fun it _ =>
    let ⟨x, hx⟩ := candles_tab it
    ⟨x, hx, trivial⟩
  refine ⟨(forgets_of (AiCCI.appends _).yields h).fine hall, ?_⟩
  have := (forgetsSides_of (AiCCI.signals (F := F) p) (h.pair CCIi.rule)).fine hall
  rwa [Nat.sub_add_cancel hp] at this

end any

/-! ## Exact arithmetic -/

section exact
variable {K : Type} [Field K] [LinearOrder K]

/-- All values are numbers. -/
def Fins (x : Nat → XF K) : Prop := ∃ a, x = finF a

/-- All prices and volumes are numbers. -/
def FinCols (x : Nat → Candle (XF K)) : Prop := ∃ n b, Cols n x b

/-- The series holds numbers. -/
def Numeric (it : Item (XF K)) : Prop := ∃ bs, Holds it bs

theorem Numeric.seq {it : Item (XF K)} (h : Numeric it) : Seq FinCols it := by
  obtain ⟨bs, hb⟩ := h
  obtain ⟨x, b, hx, _, hC⟩ := hb.cols
  refine ⟨x, ?_, _, _, hC⟩
  rw [hx, tab_length]

theorem FinCols.op {x : Nat → Candle (XF K)} (h : FinCols x) : Fins (Ind.op x) := let ⟨_, _, hC⟩ := h; ⟨_, hC.op⟩
theorem FinCols.hi {x : Nat → Candle (XF K)} (h : FinCols x) : Fins (Ind.hi x) := let ⟨_, _, hC⟩ := h; ⟨_, hC.hi⟩
theorem FinCols.lo {x : Nat → Candle (XF K)} (h : FinCols x) : Fins (Ind.lo x) := let ⟨_, _, hC⟩ := h; ⟨_, hC.lo⟩
theorem FinCols.cl {x : Nat → Candle (XF K)} (h : FinCols x) : Fins (Ind.cl x) := let ⟨_, _, hC⟩ := h; ⟨_, hC.cl⟩
theorem FinCols.vo {x : Nat → Candle (XF K)} (h : FinCols x) : Fins (Ind.vo x) := let ⟨_, _, hC⟩ := h; ⟨_, hC.vo⟩

theorem Fins.map₂ {x y : Nat → XF K} (op : XF K → XF K → XF K) (h : ∀ a b : K, ∃ c, op (.fin a) (.fin b) = .fin c)
    (hx : Fins x) (hy : Fins y) : Fins fun i => op (x i) (y i) := by
  obtain ⟨a, rfl⟩ := hx
  obtain ⟨b, rfl⟩ := hy
  exact ⟨fun i => (h (a i) (b i)).choose, funext fun i => (h (a i) (b i)).choose_spec⟩

theorem Fins.of {x : Nat → XF K} (h : ∀ i, ∃ c, x i = .fin c) : Fins x :=
  ⟨fun i => (h i).choose, funext fun i => (h i).choose_spec⟩

theorem psum_window (a : Nat → K) (p i : Nat) (h : p ≤ i + 1) :
    psum a (i + 1) - psum a (i + 1 - p) = ∑ j ∈ Finset.range p, a (i - j) := by
  induction p with
  | zero => simp
  | succ p ih =>
    have e : psum a (i + 1 - p) = psum a (i - p) + a (i - p) := by
      rw [show i + 1 - p = (i - p) + 1 by omega, psum_succ]
    rw [Finset.sum_range_succ, ← ih (by omega), e, show i + 1 - (p + 1) = i - p by omega]
    ring

theorem psum_congr {a a' : Nat → K} {p i i' : Nat} (hi : p ≤ i + 1) (hi' : p ≤ i' + 1)
    (h : ∀ j < p, a (i - j) = a' (i' - j)) :
    psum a (i + 1) - psum a (i + 1 - p) = psum a' (i' + 1) - psum a' (i' + 1 - p) := by
  rw [psum_window a p i hi, psum_window a' p i' hi']
  exact Finset.sum_congr rfl fun j hj => h j (Finset.mem_range.mp hj)

theorem Local.runSum {p : Nat} (hp : 0 < p) : Local (Fins (K := K)) (p - 1) (fun x i => runSum p x (i + 1)) := by
  rintro _ _ ⟨a, rfl⟩ ⟨a', rfl⟩ i i' hi hi' hj
  show Ta.runSum p (finF a) (i + 1) = Ta.runSum p (finF a') (i' + 1)
  rw [runSum_fin, runSum_fin, psum_congr (by omega) (by omega) fun j h => fin_inj.mp (hj j (by omega))]

variable [IsStrictOrderedRing K]

theorem Local.sma {p : Nat} (hp : 0 < p) : Local (Fins (K := K)) (p - 1) (smaF p) := by
  intro x x' hx hx' i i' hi hi' hj
  have h := Local.runSum hp x x' hx hx' i i' hi hi' hj
  have e : ∀ j, p - 1 ≤ j → (if p ≤ j then (p : Int) else (j : Int) + 1) = p := fun j h => by split <;> omega
  rw [smaF, smaF, e i hi, e i' hi']
  exact congrArg (fun v => smaFix (v /. fl p)) h

theorem fins_sma {p : Nat} (hp : 0 < p) {x : Nat → XF K} (h : Fins x) : Fins (smaF p x) := by
  obtain ⟨a, rfl⟩ := h
  exact ⟨_, funext fun i => smaF_fin hp a i⟩

theorem Local.max {p : Nat} (hp : 0 < p) : Local (Fins (K := K)) (p - 1) (maxF p) := by
  rintro _ _ ⟨a, rfl⟩ ⟨a', rfl⟩ i i' hi hi' hj
  obtain ⟨m, e, hm⟩ := maxF_fin hp a i
  obtain ⟨m', e', hm'⟩ := maxF_fin hp a' i'
  rw [e, e']
  have hs : {v | ∃ j, i + 1 ≤ j + p ∧ j ≤ i ∧ a j = v} = {v | ∃ j, i' + 1 ≤ j + p ∧ j ≤ i' ∧ a' j = v} := by
    ext v
    constructor
    · rintro ⟨j, h1, h2, h3⟩
      have := hj (i - j) (by omega)
      rw [show i - (i - j) = j by omega] at this
      exact ⟨i' - (i - j), by omega, by omega, by rw [← h3]; exact (fin_inj.mp this).symm⟩
    · rintro ⟨j, h1, h2, h3⟩
      have := hj (i' - j) (by omega)
      rw [show i' - (i' - j) = j by omega] at this
      exact ⟨i - (i' - j), by omega, by omega, by rw [← h3]; exact fin_inj.mp this⟩
  rw [hs] at hm
  exact congrArg _ (hm.unique hm')

theorem Local.min {p : Nat} (hp : 0 < p) : Local (Fins (K := K)) (p - 1) (minF p) := by
  rintro _ _ ⟨a, rfl⟩ ⟨a', rfl⟩ i i' hi hi' hj
  obtain ⟨m, e, hm⟩ := minF_fin hp a i
  obtain ⟨m', e', hm'⟩ := minF_fin hp a' i'
  rw [e, e']
  have hs : {v | ∃ j, i + 1 ≤ j + p ∧ j ≤ i ∧ a j = v} = {v | ∃ j, i' + 1 ≤ j + p ∧ j ≤ i' ∧ a' j = v} := by
    ext v
    constructor
    · rintro ⟨j, h1, h2, h3⟩
      have := hj (i - j) (by omega)
      rw [show i - (i - j) = j by omega] at this
      exact ⟨i' - (i - j), by omega, by omega, by rw [← h3]; exact (fin_inj.mp this).symm⟩
    · rintro ⟨j, h1, h2, h3⟩
      have := hj (i' - j) (by omega)
      rw [show i' - (i' - j) = j by omega] at this
      exact ⟨i - (i' - j), by omega, by omega, by rw [← h3]; exact fin_inj.mp this⟩
  rw [hs] at hm
  exact congrArg _ (hm.unique hm')

theorem fins_max {p : Nat} (hp : 0 < p) {x : Nat → XF K} (h : Fins x) : Fins (maxF p x) := by
  obtain ⟨a, rfl⟩ := h
  exact Fins.of fun i => let ⟨m, e, _⟩ := maxF_fin hp a i; ⟨m, e⟩

theorem fins_min {p : Nat} (hp : 0 < p) {x : Nat → XF K} (h : Fins x) : Fins (minF p x) := by
  obtain ⟨a, rfl⟩ := h
  exact Fins.of fun i => let ⟨m, e, _⟩ := minF_fin hp a i; ⟨m, e⟩

/-- A window function of a column. -/
theorem Local.fcol {C : Type} {w : Nat} {g : (Nat → XF K) → Nat → C} {f : Candle (XF K) → XF K}
    (hg : Local Fins w g) (hf : ∀ x, FinCols x → Fins fun i => f (x i)) :
    Local FinCols w (fun x => g fun i => f (x i)) := by
  have := Local.comp (w := 0) (f := fun x i => f (x i)) (Local.point f) hg hf
  rwa [Nat.zero_add] at this

theorem Local.sub : ∀ {w : Nat} {f g : (Nat → Candle (XF K)) → Nat → XF K}, Local FinCols w f → Local FinCols w g →
    Local FinCols w (fun x i => subF (f x i) (g x i)) := fun hf hg => Local.map₂ subF hf hg

theorem Local.stoch {p : Nat} (hp : 0 < p) :
    Local (FinCols (K := K)) (p - 1) (fun x => stochF p (Ind.cl x) (Ind.hi x) (Ind.lo x)) := by
  have h1 : Local (FinCols (K := K)) (p - 1) (fun x i => maxF p (Ind.hi x) i) :=
    Local.fcol (f := (·.high)) (Local.max hp) fun x h => h.hi
  have h2 : Local (FinCols (K := K)) (p - 1) (fun x i => minF p (Ind.lo x) i) :=
    Local.fcol (f := (·.low)) (Local.min hp) fun x h => h.lo
  have h3 : Local (FinCols (K := K)) (p - 1) (fun x i => Ind.cl x i) := Local.point _
  exact Local.map₂ (fun a b => safeDiv a b *. fl 100) (Local.sub h3 h2) (Local.sub h1 h2)

theorem fins_stoch {p : Nat} (hp : 0 < p) {x : Nat → Candle (XF K)} (h : FinCols x) :
    Fins (stochF p (Ind.cl x) (Ind.hi x) (Ind.lo x)) := by
  obtain ⟨a, ha⟩ := h.cl
  obtain ⟨u, hu⟩ := fins_max hp h.hi
  obtain ⟨l, hl⟩ := fins_min hp h.lo
  exact Fins.of fun i => ⟨_, by rw [stochF, hu, hl, ha, subF_fin, subF_fin, safeDiv_fin_eq, fl_fin, mul_fin]⟩

theorem Local.column (f : Candle (XF K) → XF K) {w : Nat} : Local (FinCols (K := K)) w (fun x i => f (x i)) :=
  Local.point f

theorem Local.zero {B : Type} {w : Nat} {f : (Nat → Candle (XF K)) → Nat → B} (h : Local FinCols (0 + w) f) :
    Local FinCols w f := by rwa [Nat.zero_add] at h

/-- `mfv` of numbers. -/
theorem fins_mfv {x : Nat → Candle (XF K)} (h : FinCols x) : Fins (mfv x) := by
  obtain ⟨n, b, hC⟩ := h
  exact Fins.of fun j => ⟨_, by
    rw [mfv, hC.cl, hC.vo, hC.hi, hC.lo]; simp only [subF_fin, safeDiv_fin_eq, mul_fin]; rfl⟩

theorem fins_midF {x : Nat → Candle (XF K)} (h : FinCols x) : Fins (midF x) := by
  obtain ⟨n, b, hC⟩ := h
  exact Fins.of fun j => ⟨_, by
    rw [midF, hC.hi, hC.lo, fl_fin, fl_fin, div_fin (by norm_num)]; simp only [add_fin, mul_fin]; rfl⟩

theorem fins_emv1 {x : Nat → Candle (XF K)} (h : FinCols x) : Fins (emv1 x) := by
  obtain ⟨m, hm⟩ := fins_midF h
  obtain ⟨n, b, hC⟩ := h
  refine Fins.of fun j => ?_
  obtain ⟨s, hs⟩ : ∃ s, shiftF 1 (fl 0) (midF x) j = .fin s := by
    rw [shiftF]; split
    · exact ⟨0, by simp⟩
    · exact ⟨_, by rw [hm]⟩
  exact ⟨_, by
    rw [emv1, hs, hm, hC.hi, hC.lo, hC.vo, fl_fin, fl_fin, div_fin (by norm_num)]
    simp only [finF, subF_fin, mul_fin, safeDiv_fin_eq]; rfl⟩

theorem fins_typF {x : Nat → Candle (XF K)} (h : FinCols x) : Fins (typF x) := by
  obtain ⟨n, b, hC⟩ := h
  exact Fins.of fun j => ⟨_, by
    rw [typF, hC.hi, hC.lo, hC.cl, fl_fin]; simp only [add_fin]; rw [div_fin (by norm_num)]⟩

theorem Local.shift1 {f : (Nat → Candle (XF K)) → Nat → XF K} {w : Nat} (h : Local FinCols w f) :
    Local FinCols (w + 1) (fun x i => shiftF 1 (fl 0) (f x) i) :=
  Local.late (h.back 1) fun x _ i hi => by rw [shiftF, if_neg (by omega)]

theorem Local.midF : Local (FinCols (K := K)) 0 (fun x i => Ind.midF x i) :=
  Local.point fun c : Candle (XF K) => (c.high +. c.low) *. (fl 1 /. fl 2)
theorem Local.typF : Local (FinCols (K := K)) 0 (fun x => Ind.typF x) :=
  Local.point fun c : Candle (XF K) => (c.high +. c.low +. c.close) /. fl 3
theorem Local.mfv : Local (FinCols (K := K)) 0 (fun x => Ind.mfv x) :=
  Local.point fun c : Candle (XF K) =>
    safeDiv (subF (subF c.close c.low) (subF c.high c.close)) (subF c.high c.low) *. c.volume

theorem Local.emv1 : Local (FinCols (K := K)) 1 (fun x => emv1 x) :=
  Local.map₂ (fun (a : XF K × XF K) (c : Candle (XF K)) => safeDiv (subF a.1 a.2)
      (safeDiv (c.volume *. (fl 1 /. fl 100000000)) (subF c.high c.low)))
    (Local.map₂ Prod.mk (Local.midF.mono (Nat.zero_le _)) (Local.shift1 Local.midF)) (Local.point id)

/-- `cciF` at one place. -/
theorem Local.cci {p sp : Nat} (hp : 0 < p) (hs : 0 < sp) :
    Local (Fins (K := K)) (Max.max (p - 1) (sp - 1)) (cciF p sp) := by
  intro x x' hx hx' i i' hi hi' hj
  have h1 := (Local.sma hs).mono (Nat.le_max_right (p - 1) (sp - 1)) x x' hx hx' i i' hi hi' hj
  have h0 : x i = x' i' := by simpa using hj 0 (Nat.zero_le _)
  have hw := window_congr (p := p) (x := x) (x' := x') (i := i) (i' := i') (by omega) (by omega)
    fun j h => hj j (by omega)
  rw [cciF, cciF, if_neg (by omega), if_neg (by omega), meanDevF, meanDevF, if_neg (by omega), if_neg (by omega), h0, h1]
  refine congrArg (fun v => _ /. (_ *. (v /. _))) (accum_congr' p fun j hj => ?_)
  simp only [hw j hj]

theorem Local.lrEnd {p : Nat} (hp : 0 < p) : Local (Fins (K := K)) (p - 1) (lrF Ta.lrEnd p) := by
  rintro _ _ ⟨a, rfl⟩ ⟨a', rfl⟩ i i' hi hi' hj
  have hw := window_congr (p := p) (x := a) (x' := a') (i := i) (i' := i') hi hi' fun j h => fin_inj.mp (hj j h)
  have e : lrS p (finF a) (i + 1 - p) = lrS p (finF a') (i' + 1 - p) := by
    rw [lrS_fin, lrS_fin, Finset.sum_congr rfl fun j hj => by rw [hw j (Finset.mem_range.mp hj)],
      Finset.sum_congr rfl fun j hj => hw j (Finset.mem_range.mp hj)]
  rw [lrF, lrF, if_neg (by omega), if_neg (by omega), e]

theorem fins_lrEnd {p : Nat} (hp : 2 ≤ p) {x : Nat → XF K} (h : Fins x) : Fins (lrF Ta.lrEnd p x) := by
  obtain ⟨a, rfl⟩ := h
  refine Fins.of fun i => ?_
  by_cases h : i + 1 < p
  · exact ⟨0, by simp [lrF, h]⟩
  · exact ⟨_, (lrSlope_fin hp a i h).2.2⟩

theorem Local.ringSum {p : Nat} (hp : 0 < p) : ∀ (a a' : Nat → K) (i i' : Nat), p ≤ i → p ≤ i' →
    (∀ j < p, a (i - j) = a' (i' - j)) → ringSum p (finF a) i = ringSum p (finF a') i' := by
  intro a a' i i' hi hi' h
  have key : ∀ (a : Nat → K) i, p ≤ i → moveSum p i a = ∑ j ∈ Finset.range p, a (i - j) := fun a i hi => by
    rw [← psum_window a p i (by omega), psum, psum, moveSum, Nat.max_eq_right (by omega), Finset.sum_Ico_eq_sub _ (by omega)]
  rw [ringSum_fin hp, ringSum_fin hp, key a i hi, key a' i' hi', Finset.sum_congr rfl fun j hj => h j (Finset.mem_range.mp hj)]

/-- A ring of a quantity read from two neighbouring candles. -/
theorem Local.ring {p : Nat} (hp : 0 < p) {f : (Nat → Candle (XF K)) → Nat → XF K} (hf : Local FinCols 1 f)
    (hq : ∀ x, FinCols x → Fins (f x)) : Local FinCols p (fun x i => Ind.ringSum p (f x) i) := by
  intro x x' hx hx' i i' hi hi' hj
  obtain ⟨a, ha⟩ := hq x hx
  obtain ⟨a', ha'⟩ := hq x' hx'
  have key : ∀ j < p, f x (i - j) = f x' (i' - j) := fun j h => hf x x' hx hx' _ _ (by omega) (by omega) fun l hl => by
    have := hj (j + l) (by omega)
    rwa [show i - (j + l) = i - j - l by omega, show i' - (j + l) = i' - j - l by omega] at this
  show Ind.ringSum p (f x) i = Ind.ringSum p (f x') i'
  rw [ha, ha'] at key ⊢
  exact Local.ringSum hp a a' i i' hi hi' fun j h => fin_inj.mp (key j h)

theorem Local.two {B : Type} (f : Candle (XF K) → Candle (XF K) → B) :
    Local (FinCols (K := K)) 1 (fun x i => f (x i) (x (i - 1))) :=
  Local.map₂ f (Local.point id) ((Local.point (w := 0) id).back 1)

/-! ## C115 -/

/-- **C115**, the moving averages: a candle is forgotten when it leaves the window. -/
theorem C115_averages {p : Nat} (hp : 0 < p) :
    Forgets (SMA p) (Numeric (K := K)) (p - 1) ∧ Forgets (MAi p) (Numeric (K := K)) (p - 1) ∧
    Forgets (VWMA p) (Numeric (K := K)) (p - 1) := by
  have h : Local (FinCols (K := K)) (p - 1) (SMA.out p) :=
    Local.map₂ Rec.mk Local.time (Local.fcol (f := (·.close)) (Local.sma hp) fun x h => h.cl)
  refine ⟨(forgets_of (SMA.makes _).yields h).fine fun _ => Numeric.seq,
    (forgets_of (MAi.appends _).yields h).fine fun _ => Numeric.seq,
    (forgets_of (VWMA.appends _).yields (Local.map₂ Rec.mk Local.time (Local.map₂ safeDiv
      (Local.zero (Local.comp (f := fun x j => Ind.cl x j *. Ind.vo x j)
        (Local.point fun c : Candle (XF K) => c.close *. c.volume) (Local.runSum hp) fun x h =>
          Fins.map₂ (· *. ·) (fun a b => ⟨_, mul_fin a b⟩) h.cl h.vo))
      (Local.fcol (f := (·.volume)) (Local.runSum hp) fun x h => h.vo)))).fine fun _ => Numeric.seq⟩

/-- **C115**, the channels and oscillators that compare a price with the extremes of its window, with their signals. -/
theorem C115_extremes {p : Nat} (hp : 0 < p) :
    Forgets (Donchian p).toIndicator (Numeric (K := K)) (p - 1) ∧ ForgetsSides (Donchian p) (Numeric (K := K)) p ∧
    Forgets (Williams p).toIndicator (Numeric (K := K)) (p - 1) ∧ ForgetsSides (Williams p) (Numeric (K := K)) p ∧
    Forgets (Stoch p).toIndicator (Numeric (K := K)) (p + 1) ∧
    ForgetsSides (Stoch p) (Numeric (K := K)) (p + 2) := by
  have hu : ∀ {f : Candle (XF K) → XF K}, (∀ x, FinCols x → Fins fun i => f (x i)) →
      Local (FinCols (K := K)) (p - 1) (fun x i => maxF p (fun i => f (x i)) i) := fun h => Local.fcol (Local.max hp) h
  have hl : ∀ {f : Candle (XF K) → XF K}, (∀ x, FinCols x → Fins fun i => f (x i)) →
      Local (FinCols (K := K)) (p - 1) (fun x i => minF p (fun i => f (x i)) i) := fun h => Local.fcol (Local.min hp) h
  have h1 : Local (FinCols (K := K)) (p - 1) (Donchian.out p) :=
    Local.map₂ (fun t (v : XF K × XF K) => (⟨t, v.1, (v.1 +. v.2) *. (fl 1 /. fl 2), v.2⟩ : Band (XF K))) Local.time
      (Local.map₂ Prod.mk (hu (f := (·.close)) fun x h => h.cl) (hl (f := (·.close)) fun x h => h.cl))
  have h2 : Local (FinCols (K := K)) (p - 1) (Williams.out p) :=
    Local.map₂ (fun (c : Candle (XF K)) (v : XF K × XF K) =>
        (⟨ti (fun _ => c) 0, (v.1 -. c.close) /. (v.1 -. v.2) *. fl (-100)⟩ : Rec (XF K))) (Local.point id)
      (Local.map₂ Prod.mk (hu (f := (·.high)) fun x h => h.hi) (hl (f := (·.low)) fun x h => h.lo))
  have h3 : Local (FinCols (K := K)) (p + 1) (Stoch.out p) := by
    have e := Local.comp (Local.stoch (K := K) hp) (Local.sma (p := 3) (by omega)) fun x h => fins_stoch hp h
    rw [show p - 1 + (3 - 1) = p + 1 by omega] at e
    exact Local.map₂ (fun t (v : XF K × XF K) => (⟨t, v.1, v.2⟩ : KD (XF K))) Local.time
      (Local.map₂ Prod.mk ((Local.stoch hp).mono (by omega)) e)
  have e : p - 1 + 1 = p := Nat.sub_add_cancel hp
  have h1' := (forgetsSides_of (Donchian.signals (F := XF K) p) (h1.pairClose _)).fine fun _ => Numeric.seq
  have h2' := (forgetsSides_of (Williams.signals (F := XF K) p) (h2.pair _)).fine fun _ => Numeric.seq
  rw [e] at h1' h2'
  exact ⟨(forgets_of (Donchian.appends _).yields h1).fine fun _ => Numeric.seq, h1',
    (forgets_of (Williams.appends _).yields h2).fine fun _ => Numeric.seq, h2',
    (forgets_of (Stoch.appends _).yields h3).fine fun _ => Numeric.seq,
    (forgetsSides_of (Stoch.signals (F := XF K) p) (h3.pair _)).fine fun _ => Numeric.seq⟩

/-- **C115**, the commodity channel index with its signals. -/
theorem C115_cci {p sp : Nat} (hp : 0 < p) (hs : 0 < sp) :
    Forgets (CCIi p sp).toIndicator (Numeric (K := K)) (Max.max (p - 1) (sp - 1)) ∧
    ForgetsSides (CCIi p sp) (Numeric (K := K)) (Max.max p sp) := by
  have h : Local (FinCols (K := K)) (Max.max (p - 1) (sp - 1)) (CCIi.out p sp) :=
    Local.map₂ Rec.mk Local.time (Local.zero (Local.comp Local.typF (Local.cci hp hs) fun x h => fins_typF h))
  have h' := (forgetsSides_of (CCIi.signals (F := XF K) p sp) (h.pair _)).fine fun _ => Numeric.seq
  rw [show Max.max (p - 1) (sp - 1) + 1 = Max.max p sp by omega] at h'
  exact ⟨(forgets_of (CCIi.appends _ _).yields h).fine fun _ => Numeric.seq, h'⟩

/-- **C115**, the volume lines that are window sums. -/
theorem C115_volume {p : Nat} (hp : 0 < p) :
    Forgets (CMF p) (Numeric (K := K)) (p - 1) ∧ Forgets (EMV p) (Numeric (K := K)) p := by
  refine ⟨(forgets_of (CMF.appends _).yields (Local.map₂ Rec.mk Local.time (Local.map₂ safeDiv
      (Local.zero (Local.comp Local.mfv (Local.runSum hp) fun x h => fins_mfv h))
      (Local.fcol (f := (·.volume)) (Local.runSum hp) fun x h => h.vo)))).fine fun _ => Numeric.seq, ?_⟩
  have h := Local.comp Local.emv1 (Local.sma (K := K) hp) fun x h => fins_emv1 h
  rw [show 1 + (p - 1) = p by omega] at h
  exact (forgets_of (EMV.appends _).yields (Local.map₂ Rec.mk Local.time h)).fine fun _ => Numeric.seq

/-- **C115**, the Vortex lines. -/
theorem C115_vortex {p : Nat} (hp : 0 < p) : Forgets (Vortex p) (Numeric (K := K)) p := by
  have r1 : Local (FinCols (K := K)) p (fun x i => Ind.ringSum p (vmPlus x) i) :=
    Local.ring hp (Local.two fun c c' => GoFloat.abs (c.high -. c'.low)) fun x ⟨n, b, hC⟩ => Fins.of fun j =>
      ⟨_, by rw [vmPlus, hC.hi, hC.lo]; simp only [finF, sub_fin, abs_fin']; rfl⟩
  have r2 : Local (FinCols (K := K)) p (fun x i => Ind.ringSum p (vmMinus x) i) :=
    Local.ring hp (Local.two fun c c' => GoFloat.abs (c.low -. c'.high)) fun x ⟨n, b, hC⟩ => Fins.of fun j =>
      ⟨_, by rw [vmMinus, hC.hi, hC.lo]; simp only [finF, sub_fin, abs_fin']; rfl⟩
  have r3 : Local (FinCols (K := K)) p (fun x i => Ind.ringSum p (vmTR x) i) :=
    Local.ring hp (Local.two fun c c' => GoFloat.max (c.high -. c.low)
      (GoFloat.max (GoFloat.abs (c.high -. c'.close)) (GoFloat.abs (c.low -. c'.close)))) fun x ⟨n, b, hC⟩ =>
      Fins.of fun j => ⟨_, by
        rw [vmTR, hC.hi, hC.lo, hC.cl]; simp only [finF, sub_fin, abs_fin', max_fin]; rfl⟩
  have h : Local (FinCols (K := K)) p (Vortex.out p) :=
    Local.late (Local.map₂ (fun t (v : XF K × XF K × XF K) => ⟨t, v.1 /. v.2.2, v.2.1 /. v.2.2⟩) Local.time
      (Local.map₂ Prod.mk r1 (Local.map₂ Prod.mk r2 r3))) fun x _ i hi => by
        simp only [Vortex.out, viPlus, viMinus, Int.toNat_natCast, if_neg (show ¬ i = 0 by omega)]
  exact (forgets_of (Vortex.appends _).yields h).fine fun _ => Numeric.seq

/-- **C115**, the regression candles with a simple average as signal line. -/
theorem C115_regression {p s : Nat} (hp : 2 ≤ p) (hs : 0 < s) :
    Forgets (LRC s p true) (Numeric (K := K)) (p - 1 + (s - 1)) := by
  have hr : ∀ {f : Candle (XF K) → XF K}, (∀ x, FinCols x → Fins fun i => f (x i)) →
      Local (FinCols (K := K)) (p - 1 + (s - 1)) (fun x i => lrF Ta.lrEnd p (fun i => f (x i)) i) := fun h =>
    (Local.fcol (Local.lrEnd (by omega)) h).mono (Nat.le_add_right _ _)
  have hsig : Local (FinCols (K := K)) (p - 1 + (s - 1)) (fun x i => smaF s (lrF Ta.lrEnd p (Ind.cl x)) i) :=
    Local.comp (Local.fcol (f := (·.close)) (Local.lrEnd (by omega)) fun x h => h.cl) (Local.sma hs)
      fun x h => fins_lrEnd hp h.cl
  refine (forgets_of (LRC.makes (s : Int) (p : Int) true).yields (P := FinCols) (w := p - 1 + (s - 1)) ?_).fine fun _ => Numeric.seq
  exact Local.map₂ (fun t (v : XF K × XF K × XF K × XF K × XF K) => (⟨t, v.1, v.2.1, v.2.2.1, v.2.2.2.1, v.2.2.2.2⟩ : LRC.Data (XF K)))
    Local.time (Local.map₂ Prod.mk (hr (f := (·.open_)) fun x h => h.op) (Local.map₂ Prod.mk (hr (f := (·.close)) fun x h => h.cl)
      (Local.map₂ Prod.mk (hr (f := (·.high)) fun x h => h.hi) (Local.map₂ Prod.mk (hr (f := (·.low)) fun x h => h.lo) hsig))))

theorem Local.midHL {p q w : Nat} (hp : 0 < p) (hq : 0 < q) (h1 : p ≤ w + 1) (h2 : q ≤ w + 1) :
    Local (FinCols (K := K)) w (fun x i => midHL p q x i) :=
  Local.map₂ (fun a b => (a +. b) *. (fl 1 /. fl 2))
    (Local.mono (Local.fcol (f := (·.high)) (Local.max hp) fun x h => h.hi) (by omega))
    (Local.mono (Local.fcol (f := (·.low)) (Local.min hq) fun x h => h.lo) (by omega))

/-- **C115**, the Ichimoku cloud with its signals: the longest of its windows counts. -/
theorem C115_ichimoku {a b l w : Nat} (ha : 0 < a) (hb : 0 < b) (h25 : 25 ≤ w) (haw : a ≤ w + 1) (hbw : b ≤ w + 1)
    (hl : l ≤ w) :
    Forgets (Ichimoku a b l).toIndicator (Numeric (K := K)) w ∧ ForgetsSides (Ichimoku a b l) (Numeric (K := K)) (w + 1) := by
  have hs : Local (FinCols (K := K)) w (fun x i => shiftF l (fl 0) (cl x) i) := by
    have e : Local (FinCols (K := K)) (0 + l) (fun x i => cl x (i - l)) := (Local.point (w := 0) fun c : Candle (XF K) => c.close).back l
    refine Local.mono (Local.late e fun x _ i hi => by rw [shiftF, if_neg (by omega)]) (by omega)
  have h : Local (FinCols (K := K)) w (Ichimoku.out a b l) :=
    Local.map₂ (fun t (v : (XF K × XF K) × (XF K × XF K)) =>
        (⟨t, v.1.1, v.1.2, (v.1.1 +. v.1.2) *. (fl 1 /. fl 2), v.2.1, v.2.2⟩ : Ichimoku.Data (XF K))) Local.time
      (Local.map₂ Prod.mk
        (Local.map₂ Prod.mk (Local.midHL (p := 9) (by omega) ha (by omega) haw)
          (Local.midHL (p := 26) (q := 26) (by omega) (by omega) (by omega) (by omega)))
        (Local.map₂ Prod.mk (Local.midHL hb hb hbw hbw) hs))
  refine ⟨(forgets_of (Ichimoku.appends _ _ _).yields h).fine fun _ => Numeric.seq,
    (forgetsSides_of (Ichimoku.signals (F := XF K) a b l) ?_).fine fun _ => Numeric.seq⟩
  have hc : Local (FinCols (K := K)) 0 (fun x i => cl x i) := Local.point _
  refine Local.late (Local.map₂ (fun (u v : XF K × Ichimoku.Data (XF K)) => Ichimoku.rule u.1 v.1 v.2 u.2)
    (Local.map₂ Prod.mk (hc.mono (Nat.zero_le _)) (h.mono (Nat.le_succ w)))
    (Local.map₂ Prod.mk ((hc.mono (Nat.zero_le w)).back 1) (h.back 1))) fun x _ i hi => ?_
  rw [ichiSide, if_neg (by omega)]

end exact

section real

theorem fins_rawF {x : Nat → Candle (XF ℝ)} (h : FinCols x) : Fins (rawF x) := by
  obtain ⟨n, b, hC⟩ := h
  exact Fins.of fun j => ⟨_, by
    rw [rawF, hC.hi, hC.lo, hC.cl, hC.vo, fl_fin]; simp only [add_fin]; rw [div_fin (by norm_num), mul_fin]⟩

theorem Local.rawF : Local (FinCols (K := ℝ)) 0 (fun x i => Ind.rawF x i) :=
  Local.point fun c : Candle (XF ℝ) => ((c.high +. c.low +. c.close) /. fl 3) *. c.volume

theorem Local.flowF : Local (FinCols (K := ℝ)) 1 (fun x => Ind.flowF x) :=
  Local.map₂ (fun (a b : XF ℝ) => (if subF a b >=. fl 0 then fl 1 else fl (-1)) *. a)
    (Local.rawF.mono (Nat.zero_le _)) (Local.shift1 Local.rawF)

theorem fins_flowF {x : Nat → Candle (XF ℝ)} (h : FinCols x) : Fins (flowF x) := by
  obtain ⟨m, hm⟩ := fins_rawF h
  refine Fins.of fun j => ?_
  rw [flowF, hm]
  split <;> exact ⟨_, by rw [fl_fin]; exact mul_fin _ _⟩

theorem Local.flowSum {p : Nat} (hp : 0 < p) (g : XF ℝ → XF ℝ) (hg : ∀ a : ℝ, ∃ c, g (.fin a) = .fin c) :
    Local (FinCols (K := ℝ)) p (fun x i => Ta.runSum p (fun j => g (Ind.flowF x j)) (i + 1)) := by
  have h := Local.comp (f := fun x j => g (Ind.flowF x j)) (Local.map g Local.flowF) (Local.runSum hp) fun x h => by
    obtain ⟨m, hm⟩ := fins_flowF h
    rw [hm]
    exact Fins.of fun j => hg (m j)
  rwa [show 1 + (p - 1) = p by omega] at h

theorem Local.mfi {p : Nat} (hp : 0 < p) : Local (FinCols (K := ℝ)) p (fun x => mfiF p x) :=
  Local.map₂ (fun a b => GoMath.pow (safeDiv a b +. fl 1) (fl (-1)) *. fl (-100) +. fl 100)
    (Local.flowSum hp (fun v => if v >. fl 0 then v else fl 0) fun a => by
      split
      · exact ⟨_, rfl⟩
      · exact ⟨_, fl_fin 0⟩)
    (Local.flowSum hp (fun v => (if v <. fl 0 then v else fl 0) *. fl (-1)) fun a => by
      rw [fl_fin, fl_fin]
      split <;> exact ⟨_, mul_fin _ _⟩)

/-- **C115**, the money flow index with its signals. -/
theorem C115_mfi {p : Nat} (hp : 0 < p) : Forgets (MFI p).toIndicator (Numeric (K := ℝ)) p ∧
    ForgetsSides (MFI p) (Numeric (K := ℝ)) (p + 1) := by
  have h : Local (FinCols (K := ℝ)) p (MFI.out p) := Local.map₂ Rec.mk Local.time (Local.mfi hp)
  exact ⟨(forgets_of (MFI.appends _).yields h).fine fun _ => Numeric.seq,
    (forgetsSides_of (MFI.signals (F := XF ℝ) p) (h.pair _)).fine fun _ => Numeric.seq⟩

theorem Local.dma {p : Nat} (hp : 0 < p) : Local (Fins (K := ℝ)) (p - 1) (dmaF p) := by
  intro x x' hx hx' i i' hi hi' hj
  have hs := Local.sma hp x x' hx hx' i i' hi hi' hj
  obtain ⟨a, rfl⟩ := hx
  obtain ⟨a', rfl⟩ := hx'
  have e : bollS p (finF a) i +. finF a i *. finF a i = bollS p (finF a') i' +. finF a' i' *. finF a' i' := by
    have := psum_congr (a := fun j => a j * a j) (a' := fun j => a' j * a' j) (p := p) (i := i) (i' := i') (by omega)
      (by omega) fun j h => by simp only [fin_inj.mp (hj j (by omega))]
    rw [psum_succ, psum_succ] at this
    simp only [bollS_fin hp, finF, mul_fin, add_fin]
    refine congrArg XF.fin ?_
    linear_combination this
  rw [dmaF, dmaF, if_neg (by omega), if_neg (by omega), hs, e]

/-- **C115**, the Bollinger bands with their signals. -/
theorem C115_boll {p : Nat} (hp : 0 < p) (k : Int) :
    Forgets (Boll p k).toIndicator (Numeric (K := ℝ)) (p - 1) ∧ ForgetsSides (Boll p k) (Numeric (K := ℝ)) p := by
  have h : Local (FinCols (K := ℝ)) (p - 1) (Boll.out p) :=
    Local.map₂ (fun t (v : XF ℝ × XF ℝ) => (⟨t, v.1 +. v.2, v.1, subF v.1 v.2, v.2⟩ : Boll.Data (XF ℝ))) Local.time
      (Local.map₂ Prod.mk (Local.fcol (f := (·.close)) (Local.sma hp) fun x h => h.cl)
        (Local.fcol (f := (·.close)) (Local.dma hp) fun x h => h.cl))
  have h' := (forgetsSides_of (Boll.signals (F := XF ℝ) p k) (h.pairClose _)).fine fun _ => Numeric.seq
  rw [Nat.sub_add_cancel hp] at h'
  exact ⟨(forgets_of (Boll.makes _ _).yields h).fine fun _ => Numeric.seq, h'⟩

end real

/-! ## What does not forget -/

deriving instance DecidableEq for B64

/-- `10^17`, then ones. -/
def spike (n : Nat) : List (Bar ℚ) := ⟨10 ^ 17, 10 ^ 17, 10 ^ 17, 10 ^ 17, 1⟩ :: List.replicate n ⟨1, 1, 1, 1, 1⟩

theorem holds_ones (n : Nat) : ∃ bs, Holds64 (item64 (List.replicate n ⟨1, 1, 1, 1, 1⟩)) bs :=
  ⟨_, holds_item64 (List.all_eq_true.mpr fun b hb => by rw [List.eq_of_mem_replicate hb]; decide +kernel)⟩

theorem holds_spike (n : Nat) : ∃ bs, Holds64 (item64 (spike n)) bs :=
  ⟨_, holds_item64 (List.all_eq_true.mpr fun b hb => by
    rcases List.mem_cons.mp hb with rfl | hb
    · decide +kernel
    · rw [List.eq_of_mem_replicate hb]; decide +kernel)⟩

/-- C115 refuted for the simple average in float64: the error a passing extreme value leaves in the running sum never
goes away. After `10^17, 1, 1, 1, …` the average of three ones is 0 for ever. -/
theorem C115_sma_f64_refuted (w : Nat) :
    ¬ Forgets (SMA (F := B64) 3) (fun it => ∃ bs, Holds64 it bs) w ∧
    ∀ n i r d, 4 ≤ i → (SMA (F := B64) 3).data (item64 (spike n)) = .ok d → d[i]? = some r → r.value.val = .fin 0 := by
  set one : Candle B64 := candle64 ⟨1, 1, 1, 1, 1⟩ with hone
  set x : Nat → Candle B64 := fun j => if j = 0 then candle64 ⟨10 ^ 17, 10 ^ 17, 10 ^ 17, 10 ^ 17, 1⟩ else one with hxd
  have hx : ∀ n, (item64 (spike n)).candles = tab (n + 1) x := fun n => by
    refine eq_tab_of_forall (by simp [item64, spike]) fun i hi => ?_
    rcases i with _ | i
    · simp [item64, spike, hxd]
    · simp only [item64, spike, List.map_cons, List.getElem?_cons_succ, List.map_replicate, hxd, if_neg (Nat.succ_ne_zero i)]
      rw [List.getElem?_replicate, if_pos (by omega)]
  have hy : ∀ n, (item64 (List.replicate n ⟨1, 1, 1, 1, 1⟩)).candles = tab n fun _ => one := fun n => by
    refine eq_tab_of_forall (by simp [item64]) fun i hi => ?_
    simp only [item64, List.map_replicate]
    rw [List.getElem?_replicate, if_pos hi]
  have bad : ∀ k, 4 ≤ k → runSum 3 (cl x) k = fl 0 := fun k hk => by
    induction k, hk using Nat.le_induction with
    | base => decide +kernel
    | succ k hk ih =>
      rw [runSum, if_pos (by omega), ih]
      simp only [cl, hxd, if_neg (show ¬ k = 0 by omega), if_neg (show ¬ k - 3 = 0 by omega)]
      decide +kernel
  have good : ∀ k, 3 ≤ k → runSum 3 (cl fun _ => one) k = fl 3 := fun k hk => by
    induction k, hk using Nat.le_induction with
    | base => decide +kernel
    | succ k hk ih =>
      rw [runSum, if_pos hk, ih]
      simp only [cl]
      decide +kernel
  refine ⟨fun h => ?_, fun n i r d hi hd hr => ?_⟩
  · have hd := ((SMA.makes (F := B64) 3).yields _ _ _ (hx (w + 5))).1 (by left; norm_num)
    have hd' := ((SMA.makes (F := B64) 3).yields _ _ _ (hy (w + 5))).1 (by left; norm_num)
    have e := congrArg (fun l => l[4]?) (h (item64 (spike (w + 5))) (item64 (List.replicate (w + 5) ⟨1, 1, 1, 1, 1⟩)) 1 0
      _ _ (holds_spike _) (holds_ones _) (by simp [SameTail, item64, spike]) hd hd')
    simp only [List.getElem?_drop] at e
    rw [tab_getElem?_lt (by omega), tab_getElem?_lt (by omega)] at e
    have e2 := congrArg Rec.value (Option.some.inj e)
    simp only [SMA.out, smaF, show (3 : Int).toNat = 3 from rfl, if_pos (show 3 ≤ 1 + w + 4 by omega),
      if_pos (show 3 ≤ 0 + w + 4 by omega)] at e2
    rw [bad _ (by omega), good _ (by omega)] at e2
    revert e2
    decide +kernel
  · obtain ⟨-, rfl⟩ := yields_inv (SMA.makes (F := B64) 3).yields (hx n) hd
    have hi' : i < n + 1 := by
      have := (List.getElem?_eq_some_iff.mp hr).1
      rwa [tab_length] at this
    rw [tab_getElem?_lt hi'] at hr
    rw [← Option.some.inj hr]
    simp only [SMA.out, smaF, show (3 : Int).toNat = 3 from rfl, if_pos (show 3 ≤ i by omega)]
    rw [bad _ (by omega)]
    decide +kernel

/-- C115 refuted for the projection oscillator: it multiplies slopes by the position of the candle in the loaded series,
so the same eight candles give other values when three older candles are loaded too. -/
theorem C115_projection_refuted :
    ((Projection 3 2).data (barItem (flatBars [(1 : ℚ), 2, 3, 4, 5, 6, 7, 8]))).toOption.map (·.map (·.po) |>.drop 5) =
      some [.fin (-25), .fin (-50), .fin (-75)] ∧
    ((Projection 3 2).data (barItem (flatBars [(0 : ℚ), -1, 0, 1, 2, 3, 4, 5, 6, 7, 8]))).toOption.map
      (·.map (·.po) |>.drop 8) = some [.fin (-100), .fin (-125), .fin (-150)] ∧
    SameTail (barItem (flatBars [(1 : ℚ), 2, 3, 4, 5, 6, 7, 8]))
      (barItem (flatBars [(0 : ℚ), -1, 0, 1, 2, 3, 4, 5, 6, 7, 8])) 0 3 := by
  refine ⟨?_, ?_, rfl⟩ <;> decide +kernel

/-- Two series with different first candles and a common tail, on which all of the above applies: the averages of three
agree from the third candle of the tail on, the float64 index of `AiCoinCCI` too. -/
example : SameTail (barItem (flatBars [(5 : ℚ), 1, 2, 3, 4])) (barItem (flatBars [9, 7, 1, 2, 3, 4])) 1 2 ∧
    Numeric (barItem (flatBars [(5 : ℚ), 1, 2, 3, 4])) ∧ Numeric (barItem (flatBars [(9 : ℚ), 7, 1, 2, 3, 4])) ∧
    ((SMA 3).data (barItem (flatBars [(5 : ℚ), 1, 2, 3, 4]))).toOption.map (·.map (·.value)) =
      some [.fin 5, .fin 3, .fin (8 / 3), .fin 2, .fin 3] ∧
    ((SMA 3).data (barItem (flatBars [(9 : ℚ), 7, 1, 2, 3, 4]))).toOption.map (·.map (·.value)) =
      some [.fin 9, .fin 8, .fin (17 / 3), .fin (10 / 3), .fin 2, .fin 3] := by
  refine ⟨rfl, ⟨_, holds_barItem _⟩, ⟨_, holds_barItem _⟩, ?_, ?_⟩ <;> decide +kernel

example : SameTail (item64 [⟨3, 3, 3, 3, 1⟩, ⟨1, 1, 1, 1, 1⟩, ⟨2, 2, 2, 2, 1⟩]) (item64 [⟨1, 1, 1, 1, 1⟩, ⟨2, 2, 2, 2, 1⟩]) 1 0 ∧
    (((AiCCI (F := B64) 2).data (item64 [⟨3, 3, 3, 3, 1⟩, ⟨1, 1, 1, 1, 1⟩, ⟨2, 2, 2, 2, 1⟩])).toOption.map
      (·.drop 2)) = ((AiCCI (F := B64) 2).data (item64 [⟨1, 1, 1, 1, 1⟩, ⟨2, 2, 2, 2, 1⟩])).toOption.map (·.drop 1) := by
  refine ⟨rfl, ?_⟩
  decide +kernel

end Verif.Props
