import Verif.Props.Forget
import Verif.Props.VolumeLines
import Mathlib.Tactic.Linarith
import Mathlib.Tactic.Positivity

/-!
# The market upside down (C117)

Every price is replaced by its distance from a fixed level `m`, so that rises become falls. Exact arithmetic.
-/

set_option linter.unusedSectionVars false
set_option linter.unusedVariables false

namespace Verif.Props
open Verif Verif.Klines Verif.Ta Verif.Ind GoFloat XF

variable {K : Type} [Field K] [LinearOrder K] [IsStrictOrderedRing K]

/-! ## Vocabulary -/

/-- The candle seen upside down: a price `p` becomes `m - p`, so high and low change places; a bullish candle becomes a
bearish one. Volume and time stay. -/
def mirrorC (m : K) (k : Candle (XF K)) : Candle (XF K) :=
  { k with open_ := .fin m -. k.open_, high := .fin m -. k.low, low := .fin m -. k.high, close := .fin m -. k.close,
           isBull := !k.isBull }

/-- The market upside down. -/
def mirror (m : K) (it : Item (XF K)) : Item (XF K) := { it with candles := it.candles.map (mirrorC m) }

/-- The opposite signal. -/
def opposite (s : Side) : Side := if s = Buy then Sell else if s = Sell then Buy else s

/-- From candle `k` on, the line `v` of the market upside down is `φ m` of the line `u` of the market; and `GetData`
panics for one of them exactly when it panics for the other. -/
def Turns (P : Item (XF K) → Prop) (I : Indicator (XF K)) (k : Nat) (u v : I.D → XF K) (φ : K → XF K → XF K) : Prop :=
  ∀ (m : K) (it : Item (XF K)), P it → ((I.data (mirror m it)).toOption.map fun d => (d.drop k).map v) =
    (I.data it).toOption.map fun d => (d.drop k).map fun r => φ m (u r)

/-- Lines that are prices: `m - a`. -/
def Reflected (P : Item (XF K) → Prop) (I : Indicator (XF K)) (u v : I.D → XF K) : Prop :=
  Turns P I 0 u v fun m a => .fin m -. a

/-- Lines that measure a direction: `-a`. -/
def Negated (P : Item (XF K) → Prop) (I : Indicator (XF K)) (u : I.D → XF K) : Prop :=
  Turns P I 0 u u fun _ a => .fin 0 -. a

/-- Lines that do not see the direction. -/
def Kept (P : Item (XF K) → Prop) (I : Indicator (XF K)) (u v : I.D → XF K) : Prop := Turns P I 0 u v fun _ a => a

/-- From candle `k` on, the signals of the market upside down are the opposite signals. -/
def SidesTurn (P : Item (XF K) → Prop) (I : Strat (XF K)) (k : Nat) : Prop :=
  ∀ (m : K) (it : Item (XF K)), P it → (I.signals (mirror m it)).toOption.map (List.drop k) =
    (I.signals it).toOption.map fun s => (s.drop k).map opposite

/-- The series holds numbers and every candle has the property `Q`. -/
def Bars (Q : Bar K → Prop) (it : Item (XF K)) : Prop := ∃ bs, Holds it bs ∧ ∀ b ∈ bs, Q b

/-! ## Tools -/

/-- The bar upside down. -/
def mirrorB (m : K) (b : Bar K) : Bar K := ⟨m - b.o, m - b.l, m - b.h, m - b.c, b.v⟩

@[simp] theorem mirrorB_o (m : K) (b : Bar K) : (mirrorB m b).o = m - b.o := rfl
@[simp] theorem mirrorB_h (m : K) (b : Bar K) : (mirrorB m b).h = m - b.l := rfl
@[simp] theorem mirrorB_l (m : K) (b : Bar K) : (mirrorB m b).l = m - b.h := rfl
@[simp] theorem mirrorB_c (m : K) (b : Bar K) : (mirrorB m b).c = m - b.c := rfl
@[simp] theorem mirrorB_v (m : K) (b : Bar K) : (mirrorB m b).v = b.v := rfl

/-- The candle sequence upside down. -/
def mir (m : K) (x : Nat → Candle (XF K)) : Nat → Candle (XF K) := fun j => mirrorC m (x j)

theorem Cols.mirror {n : Nat} {x : Nat → Candle (XF K)} {b : Nat → Bar K} (h : Cols n x b) (m : K) :
    Cols n (mir m x) (fun i => mirrorB m (b i)) := by
  have e1 : ∀ i, (x i).open_ = .fin (b i).o := congrFun h.op
  have e2 : ∀ i, (x i).high = .fin (b i).h := congrFun h.hi
  have e3 : ∀ i, (x i).low = .fin (b i).l := congrFun h.lo
  have e4 : ∀ i, (x i).close = .fin (b i).c := congrFun h.cl
  have e5 : ∀ i, (x i).volume = .fin (b i).v := congrFun h.vo
  constructor <;> funext i <;>
    simp [Ind.op, Ind.hi, Ind.lo, Ind.cl, Ind.vo, mir, mirrorC, e1, e2, e3, e4, e5, finF]

theorem ti_mir (m : K) (x : Nat → Candle (XF K)) (i : Nat) : ti (mir m x) i = ti x i := rfl

theorem Bars.cols {Q : Bar K → Prop} {it : Item (XF K)} (h : Bars Q it) :
    ∃ x b, it.candles = tab it.candles.length x ∧ Cols it.candles.length x b ∧ ∀ i < it.candles.length, Q (b i) := by
  obtain ⟨bs, hb, hq⟩ := h
  have hl : it.candles.length = bs.length := by simpa using congrArg List.length hb
  obtain ⟨x, b, hx, hbs, hC⟩ := hb.cols
  rw [hl]
  exact ⟨x, b, hx, hC, fun i hi => hq _ (by rw [hbs]; exact mem_tab.mpr ⟨i, hi, rfl⟩)⟩

theorem numeric_bars {it : Item (XF K)} (h : Numeric it) : Bars (fun _ => True) it :=
  let ⟨bs, hb⟩ := h
  ⟨bs, hb, fun _ _ => trivial⟩

theorem mirror_tab {it : Item (XF K)} {n : Nat} {x : Nat → Candle (XF K)} (h : it.candles = tab n x) (m : K) :
    (mirror m it).candles = tab n (mir m x) := by
  rw [Props.mirror, h]; simp only [tab, List.map_map]; rfl

theorem drop_map_tab {α β : Type} {n k : Nat} {f g : Nat → α} {u v : α → β} (h : ∀ i, k ≤ i → i < n → v (g i) = u (f i)) :
    ((tab n g).drop k).map v = ((tab n f).drop k).map u := by
  apply List.ext_getElem?
  intro j
  simp only [List.getElem?_map, List.getElem?_drop]
  by_cases hj : k + j < n
  · rw [tab_getElem?_lt hj, tab_getElem?_lt hj]; simp [h (k + j) (by omega) hj]
  · rw [List.getElem?_eq_none (by simp; omega), List.getElem?_eq_none (by simp; omega)]; rfl

theorem turns_of {Q : Bar K → Prop} {I : Indicator (XF K)} {ok} {G} (hy : Yields I ok G) {k : Nat} {u v : I.D → XF K}
    {φ : K → XF K → XF K}
    (h : ∀ (m : K) (n : Nat) (x : Nat → Candle (XF K)) (b : Nat → Bar K), Cols n x b → (∀ i < n, Q (b i)) →
      ∀ i, k ≤ i → i < n → v (G (mir m x) i) = φ m (u (G x i))) : Turns (Bars Q) I k u v φ := by
  intro m it hP
  obtain ⟨x, b, hx, hC, hQ⟩ := hP.cols
  have hx' := mirror_tab hx m
  by_cases hok : ok it.candles.length
  · rw [(hy _ _ _ hx).1 hok, (hy _ _ _ hx').1 hok]
    exact congrArg some (drop_map_tab fun i hk hi => h m _ x b hC hQ i hk hi)
  · obtain ⟨p, hp⟩ := (hy _ _ _ hx).2 hok
    obtain ⟨p', hp'⟩ := (hy _ _ _ hx').2 hok
    rw [hp, hp']; rfl

theorem sides_of {Q : Bar K → Prop} {I : Strat (XF K)} {ok} {f} (hy : Signals I ok f) {k : Nat}
    (h : ∀ (m : K) (n : Nat) (x : Nat → Candle (XF K)) (b : Nat → Bar K), Cols n x b → (∀ i < n, Q (b i)) →
      ∀ i, k ≤ i → i < n → f (mir m x) i = opposite (f x i)) : SidesTurn (Bars Q) I k := by
  intro m it hP
  obtain ⟨x, b, hx, hC, hQ⟩ := hP.cols
  have hx' := mirror_tab hx m
  by_cases hok : ok it.candles.length
  · rw [(hy _ _ _ hx).1 hok, (hy _ _ _ hx').1 hok]
    refine congrArg some ?_
    have := drop_map_tab (u := opposite) (v := id) (n := it.candles.length) (k := k) (f := f x) (g := f (mir m x))
      fun i hk hi => h m _ x b hC hQ i hk hi
    rwa [List.map_id] at this
  · obtain ⟨p, hp⟩ := (hy _ _ _ hx).2 hok
    obtain ⟨p', hp'⟩ := (hy _ _ _ hx').2 hok
    rw [hp, hp']; rfl

theorem Turns.numeric {I : Indicator (XF K)} {k u v φ} (h : Turns (Bars fun _ => True) I k u v φ) :
    Turns (Numeric (K := K)) I k u v φ := fun m it hn => h m it (numeric_bars hn)

theorem SidesTurn.numeric {I : Strat (XF K)} {k} (h : SidesTurn (Bars fun _ => True) I k) :
    SidesTurn (Numeric (K := K)) I k := fun m it hn => h m it (numeric_bars hn)

/-! ### Averages and extremes of reflected columns -/

theorem emaK_mirror {p : Nat} {m : K} {a a' : Nat → K} {i : Nat} (h : ∀ j ≤ i, a' j = m - a j) :
    emaK p a' i = m - emaK p a i := by
  induction i with
  | zero => exact h 0 (le_refl _)
  | succ i ih =>
    have hp : ((p : K) + 1) ≠ 0 := by positivity
    rw [emaK, emaK, ih fun j hj => h j (by omega), h (i + 1) (le_refl _)]
    field_simp
    ring

theorem psum_mirror {m : K} {a a' : Nat → K} {k : Nat} (h : ∀ j < k, a' j = m - a j) :
    psum a' k = k * m - psum a k := by
  induction k with
  | zero => simp [psum]
  | succ k ih =>
    rw [psum_succ, psum_succ, ih fun j hj => h j (by omega), h k (by omega)]
    push_cast
    ring

theorem smaF_mirror {p : Nat} (hp : 0 < p) {m : K} {a a' : Nat → K} {i : Nat} (h : ∀ j ≤ i, a' j = m - a j) :
    smaF p (finF a') i = .fin m -. smaF p (finF a) i := by
  rw [smaF_fin hp, smaF_fin hp, sub_fin, psum_mirror (k := i + 1) fun j hj => h j (by omega),
    psum_mirror (k := i + 1 - p) fun j hj => h j (by omega)]
  have h0 : ((min p (i + 1) : Nat) : K) ≠ 0 := natCast_ne (by omega)
  have e : ((i + 1 : Nat) : K) = ((min p (i + 1) : Nat) : K) + ((i + 1 - p : Nat) : K) := by
    rw [← Nat.cast_add]; congr 1; omega
  rw [e]
  congr 1
  field_simp
  ring

theorem maxF_mirror {p : Nat} (hp : 0 < p) {m : K} {a a' : Nat → K} {i : Nat} (h : ∀ j ≤ i, a' j = m - a j) :
    maxF p (finF a') i = .fin m -. minF p (finF a) i := by
  obtain ⟨u, e, ⟨j, j1, j2, j3⟩, hu⟩ := maxF_fin hp a' i
  obtain ⟨v, e', ⟨l, l1, l2, l3⟩, hv⟩ := minF_fin hp a i
  rw [e, e', sub_fin]
  congr 1
  refine le_antisymm ?_ ?_
  · have := hv ⟨j, j1, j2, rfl⟩
    rw [h j j2] at j3
    linarith
  · exact hu ⟨l, l1, l2, by rw [h l l2, l3]⟩

theorem minF_mirror {p : Nat} (hp : 0 < p) {m : K} {a a' : Nat → K} {i : Nat} (h : ∀ j ≤ i, a' j = m - a j) :
    minF p (finF a') i = .fin m -. maxF p (finF a) i := by
  obtain ⟨u, e, ⟨j, j1, j2, j3⟩, hu⟩ := minF_fin hp a' i
  obtain ⟨v, e', ⟨l, l1, l2, l3⟩, hv⟩ := maxF_fin hp a i
  rw [e, e', sub_fin]
  congr 1
  refine le_antisymm ?_ ?_
  · exact hu ⟨l, l1, l2, by rw [h l l2, l3]⟩
  · have := hv ⟨j, j1, j2, rfl⟩
    rw [h j j2] at j3
    linarith

theorem sub_zero_fin (a : K) : (.fin 0 -. .fin a : XF K) = .fin (-a) := by rw [sub_fin, zero_sub]

theorem div_neg_fin (a b : K) : (.fin (-a) /. .fin b : XF K) = .fin 0 -. (.fin a /. .fin b) := by
  rw [div_fin_eq, div_fin_eq]
  split
  · simp only [infSign, Left.neg_pos_iff, Left.neg_neg_iff]
    rcases lt_trichotomy a 0 with h | h | h
    · rw [if_pos h, if_neg (not_lt.mpr h.le), if_pos h]; rfl
    · subst h; simp only [lt_irrefl, if_false]; rfl
    · rw [if_neg (not_lt.mpr h.le), if_pos h, if_pos h]; rfl
  · rw [sub_fin, neg_div, zero_sub]

theorem emaF_mirror {p : Nat} {m : K} {a a' : Nat → K} {i : Nat} (h : ∀ j ≤ i, a' j = m - a j) :
    emaF p (finF a') i = .fin m -. emaF p (finF a) i := by rw [emaF_fin, emaF_fin, sub_fin, emaK_mirror h]

theorem neg_of_mirror {m : K} {u u' v v' : XF K} {a b : K} (hu : u = .fin a) (hv : v = .fin b) (h : u' = .fin m -. u)
    (h' : v' = .fin m -. v) : subF u' v' = .fin 0 -. subF u v := by
  rw [h, h', hu, hv, sub_fin, sub_fin, subF_fin, subF_fin, sub_fin]; congr 1; ring

section main
variable {m : K} {n : Nat} {x : Nat → Candle (XF K)} {b : Nat → Bar K}

theorem ema_mir (hC : Cols n x b) (p i : Nat) : emaF p (cl (mir m x)) i = .fin m -. emaF p (cl x) i := by
  rw [hC.cl, (hC.mirror m).cl]; exact emaF_mirror fun j _ => rfl

theorem ema_cl (hC : Cols n x b) (p i : Nat) : emaF p (cl x) i = .fin (emaK p (fun j => (b j).c) i) := by
  rw [hC.cl, emaF_fin]

theorem dif_mir (hC : Cols n x b) (p q i : Nat) : difF p q (mir m x) i = .fin 0 -. difF p q x i :=
  neg_of_mirror (ema_cl hC p i) (ema_cl hC q i) (ema_mir hC p i) (ema_mir hC q i)

theorem dif_fin (hC : Cols n x b) (p q : Nat) :
    difF p q x = finF fun i => emaK p (fun j => (b j).c) i - emaK q (fun j => (b j).c) i := by
  funext i
  show subF _ _ = _
  rw [ema_cl hC, ema_cl hC, subF_fin]

theorem med_fin (hC : Cols n x b) : medF x = finF fun i => ((b i).l + (b i).h) / 2 := by
  funext i
  rw [medF, hC.lo, hC.hi, fl_fin, fl_fin, div_fin (by norm_num)]
  simp only [finF, add_fin, mul_fin]
  congr 1; push_cast; ring

theorem typ_fin (hC : Cols n x b) : typF x = finF fun i => ((b i).h + (b i).l + (b i).c) / 3 := by
  funext i
  rw [typF, hC.lo, hC.hi, hC.cl, fl_fin]
  simp only [finF, add_fin]
  rw [div_fin (by norm_num)]
  congr 1; push_cast; ring

/-- **C117**, averages of prices are reflected like prices. -/
theorem C117_averages {p : Nat} (hp : 0 < p) :
    Reflected (Numeric (K := K)) (SMA p) Rec.value Rec.value ∧ Reflected (Numeric (K := K)) (MAi p) Rec.value Rec.value ∧
    Reflected (Numeric (K := K)) (EMA p) Rec.value Rec.value ∧ Reflected (Numeric (K := K)) (DEMA p) Rec.value Rec.value := by
  refine ⟨(turns_of (SMA.makes _).yields fun m n x b hC _ i _ _ => ?_).numeric,
    (turns_of (MAi.appends _).yields fun m n x b hC _ i _ _ => ?_).numeric,
    (turns_of (EMA.makes _).yields fun m n x b hC _ i _ _ => ema_mir hC p i).numeric,
    (turns_of (DEMA.makes _).yields fun m n x b hC _ i _ _ => ?_).numeric⟩
  · show smaF p (cl (mir m x)) i = .fin m -. smaF p (cl x) i
    rw [hC.cl, (hC.mirror m).cl]; exact smaF_mirror hp fun j _ => rfl
  · show smaF p (cl (mir m x)) i = .fin m -. smaF p (cl x) i
    rw [hC.cl, (hC.mirror m).cl]; exact smaF_mirror hp fun j _ => rfl
  · show demaF p (cl (mir m x)) i = .fin m -. demaF p (cl x) i
    have e : ∀ a : Nat → K, emaF p (finF a) = finF (emaK p a) := fun a => funext fun i => emaF_fin p a i
    have h1 : ∀ j, emaK p (fun j => (mirrorB m (b j)).c) j = m - emaK p (fun j => (b j).c) j :=
      fun j => emaK_mirror fun _ _ => rfl
    have h2 : emaK p (emaK p fun j => (mirrorB m (b j)).c) i = m - emaK p (emaK p fun j => (b j).c) i :=
      emaK_mirror fun j _ => h1 j
    rw [hC.cl, (hC.mirror m).cl, demaF, demaF, e, e, e, e, fl_fin]
    simp only [finF, mul_fin, subF_fin, sub_fin]
    rw [h1, h2]
    congr 1; push_cast; ring

/-- **C117**, the sets of exponential averages. -/
theorem C117_sets (p s1 s2 l1 l2 : Nat) :
    Reflected (Numeric (K := K)) (Vegas p s1 s2 l1 l2).toIndicator Vegas.Data.value Vegas.Data.value ∧
    Reflected (Numeric (K := K)) (Vegas p s1 s2 l1 l2).toIndicator Vegas.Data.short1 Vegas.Data.short1 ∧
    Reflected (Numeric (K := K)) (Vegas p s1 s2 l1 l2).toIndicator Vegas.Data.short2 Vegas.Data.short2 ∧
    Reflected (Numeric (K := K)) (Vegas p s1 s2 l1 l2).toIndicator Vegas.Data.long1 Vegas.Data.long1 ∧
    Reflected (Numeric (K := K)) (Vegas p s1 s2 l1 l2).toIndicator Vegas.Data.long2 Vegas.Data.long2 ∧
    Reflected (Numeric (K := K)) (XO p s1).toIndicator XO.Data.fast XO.Data.fast ∧
    Reflected (Numeric (K := K)) (XO p s1).toIndicator XO.Data.slow XO.Data.slow :=
  ⟨(turns_of (Vegas.makes _ _ _ _ _).yields fun m n x b hC _ i _ _ => ema_mir hC p i).numeric,
    (turns_of (Vegas.makes _ _ _ _ _).yields fun m n x b hC _ i _ _ => ema_mir hC s1 i).numeric,
    (turns_of (Vegas.makes _ _ _ _ _).yields fun m n x b hC _ i _ _ => ema_mir hC s2 i).numeric,
    (turns_of (Vegas.makes _ _ _ _ _).yields fun m n x b hC _ i _ _ => ema_mir hC l1 i).numeric,
    (turns_of (Vegas.makes _ _ _ _ _).yields fun m n x b hC _ i _ _ => ema_mir hC l2 i).numeric,
    (turns_of (XO.makes _ _).yields fun m n x b hC _ i _ _ => ema_mir hC p i).numeric,
    (turns_of (XO.makes _ _).yields fun m n x b hC _ i _ _ => ema_mir hC s1 i).numeric⟩

theorem maxCl_mir {p : Nat} (hp : 0 < p) (hC : Cols n x b) (i : Nat) : maxF p (cl (mir m x)) i = .fin m -. minF p (cl x) i := by
  rw [hC.cl, (hC.mirror m).cl]; exact maxF_mirror hp fun j _ => rfl

theorem minCl_mir {p : Nat} (hp : 0 < p) (hC : Cols n x b) (i : Nat) : minF p (cl (mir m x)) i = .fin m -. maxF p (cl x) i := by
  rw [hC.cl, (hC.mirror m).cl]; exact minF_mirror hp fun j _ => rfl

theorem donchian_mid_mir {p : Nat} (hp : 0 < p) (hC : Cols n x b) (i : Nat) :
    (Donchian.out p (mir m x) i).middle = .fin m -. (Donchian.out p x i).middle := by
  show (maxF p (cl (mir m x)) i +. minF p (cl (mir m x)) i) *. (fl 1 /. fl 2) =
    .fin m -. (maxF p (cl x) i +. minF p (cl x) i) *. (fl 1 /. fl 2)
  rw [maxCl_mir hp hC, minCl_mir hp hC, hC.cl]
  obtain ⟨u, e, -⟩ := maxF_fin hp (fun j => (b j).c) i
  obtain ⟨v, e', -⟩ := minF_fin hp (fun j => (b j).c) i
  rw [e, e', fl_fin, fl_fin, div_fin (by norm_num)]
  simp only [sub_fin, add_fin, mul_fin]
  congr 1; push_cast; ring

/-- **C117**, the Donchian channel: the upper band of the one is the lower band of the other; and the middle of the Keltner
channel. -/
theorem C117_channels {p : Nat} (hp : 0 < p) :
    Reflected (Numeric (K := K)) (Donchian p).toIndicator Band.upper Band.lower ∧
    Reflected (Numeric (K := K)) (Donchian p).toIndicator Band.middle Band.middle ∧
    Reflected (Numeric (K := K)) (Donchian p).toIndicator Band.lower Band.upper ∧
    Reflected (Numeric (K := K)) (Keltner p).toIndicator Band.middle Band.middle :=
  ⟨(turns_of (Donchian.appends _).yields fun m n x b hC _ i _ _ => minCl_mir hp hC i).numeric,
    (turns_of (Donchian.appends _).yields fun m n x b hC _ i _ _ => donchian_mid_mir hp hC i).numeric,
    (turns_of (Donchian.appends _).yields fun m n x b hC _ i _ _ => maxCl_mir hp hC i).numeric,
    (turns_of (Keltner.appends _).yields fun m n x b hC _ i _ _ => ema_mir hC p i).numeric⟩

theorem midHL_isFin {p : Nat} (hp : 0 < p) (hC : Cols n x b) (i : Nat) : ∃ a, midHL p p x i = .fin a := by
  obtain ⟨u, e, -⟩ := maxF_fin hp (fun j => (b j).h) i
  obtain ⟨v, e', -⟩ := minF_fin hp (fun j => (b j).l) i
  exact ⟨_, by rw [midHL, hC.hi, hC.lo, e, e', fl_fin, fl_fin, div_fin (by norm_num), add_fin, mul_fin]⟩

theorem maxHi_mir {p : Nat} (hp : 0 < p) (hC : Cols n x b) (i : Nat) :
    maxF p (hi (mir m x)) i = .fin m -. minF p (lo x) i := by
  rw [hC.lo, (hC.mirror m).hi]; exact maxF_mirror hp fun j _ => rfl

theorem minLo_mir {p : Nat} (hp : 0 < p) (hC : Cols n x b) (i : Nat) :
    minF p (lo (mir m x)) i = .fin m -. maxF p (hi x) i := by
  rw [hC.hi, (hC.mirror m).lo]; exact minF_mirror hp fun j _ => rfl

theorem midHL_mir {p : Nat} (hp : 0 < p) (hC : Cols n x b) (i : Nat) :
    midHL p p (mir m x) i = .fin m -. midHL p p x i := by
  rw [midHL, midHL, maxHi_mir hp hC, minLo_mir hp hC, hC.hi, hC.lo]
  obtain ⟨u, e, -⟩ := maxF_fin hp (fun j => (b j).h) i
  obtain ⟨v, e', -⟩ := minF_fin hp (fun j => (b j).l) i
  rw [e, e', fl_fin, fl_fin, div_fin (by norm_num)]
  simp only [sub_fin, add_fin, mul_fin]
  congr 1; push_cast; ring

theorem ichi_mir {p : Nat} (hp : 0 < p) (l : Nat) (hC : Cols n x b) (i : Nat) :
    (Ichimoku.out 9 p l (mir m x) i).conversion = .fin m -. (Ichimoku.out 9 p l x i).conversion ∧
    (Ichimoku.out 9 p l (mir m x) i).base = .fin m -. (Ichimoku.out 9 p l x i).base ∧
    (Ichimoku.out 9 p l (mir m x) i).spanA = .fin m -. (Ichimoku.out 9 p l x i).spanA ∧
    (Ichimoku.out 9 p l (mir m x) i).spanB = .fin m -. (Ichimoku.out 9 p l x i).spanB := by
  have h1 := midHL_mir (m := m) (p := 9) (by norm_num) hC i
  have h2 := midHL_mir (m := m) (p := 26) (by norm_num) hC i
  refine ⟨h1, h2, ?_, midHL_mir hp hC i⟩
  show (midHL 9 9 (mir m x) i +. midHL 26 26 (mir m x) i) *. (fl 1 /. fl 2) =
    .fin m -. (midHL 9 9 x i +. midHL 26 26 x i) *. (fl 1 /. fl 2)
  obtain ⟨u, e⟩ := midHL_isFin (p := 9) (by norm_num) hC i
  obtain ⟨v, e'⟩ := midHL_isFin (p := 26) (by norm_num) hC i
  rw [h1, h2, e, e', fl_fin, fl_fin, div_fin (by norm_num)]
  simp only [sub_fin, add_fin, mul_fin]
  congr 1; push_cast; ring

/-- **C117**, the Ichimoku cloud with the usual conversion period 9 (for another period the conversion line reads the high
and the low over windows of different lengths). The lagging span starts with zeros and is reflected where it is a price. -/
theorem C117_ichimoku {p : Nat} (hp : 0 < p) (l : Nat) :
    Reflected (Numeric (K := K)) (Ichimoku 9 p l).toIndicator Ichimoku.Data.conversion Ichimoku.Data.conversion ∧
    Reflected (Numeric (K := K)) (Ichimoku 9 p l).toIndicator Ichimoku.Data.base Ichimoku.Data.base ∧
    Reflected (Numeric (K := K)) (Ichimoku 9 p l).toIndicator Ichimoku.Data.spanA Ichimoku.Data.spanA ∧
    Reflected (Numeric (K := K)) (Ichimoku 9 p l).toIndicator Ichimoku.Data.spanB Ichimoku.Data.spanB ∧
    Turns (Numeric (K := K)) (Ichimoku 9 p l).toIndicator l Ichimoku.Data.lagging Ichimoku.Data.lagging (fun m a => .fin m -. a) :=
  ⟨(turns_of (Ichimoku.appends _ _ _).yields fun m n x b hC _ i _ _ => (ichi_mir hp l hC i).1).numeric,
    (turns_of (Ichimoku.appends _ _ _).yields fun m n x b hC _ i _ _ => (ichi_mir hp l hC i).2.1).numeric,
    (turns_of (Ichimoku.appends _ _ _).yields fun m n x b hC _ i _ _ => (ichi_mir hp l hC i).2.2.1).numeric,
    (turns_of (Ichimoku.appends _ _ _).yields fun m n x b hC _ i _ _ => (ichi_mir hp l hC i).2.2.2).numeric,
    (turns_of (Ichimoku.appends _ _ _).yields fun m n x b hC _ i hk _ => by
      show shiftF l (fl 0) (cl (mir m x)) i = .fin m -. shiftF l (fl 0) (cl x) i
      rw [shiftF, shiftF, if_neg (by omega), if_neg (by omega)]
      rfl).numeric⟩

theorem macd_mir (hC : Cols n x b) (p s q i : Nat) :
    (MACD.out p s q (mir m x) i).dif = .fin 0 -. (MACD.out p s q x i).dif ∧
    (MACD.out p s q (mir m x) i).dea = .fin 0 -. (MACD.out p s q x i).dea ∧
    (MACD.out p s q (mir m x) i).macd = .fin 0 -. (MACD.out p s q x i).macd := by
  have h1 := dif_mir (m := m) hC p q i
  have h2 : emaF s (difF p q (mir m x)) i = .fin 0 -. emaF s (difF p q x) i := by
    rw [dif_fin hC, dif_fin (hC.mirror m)]
    refine emaF_mirror fun j _ => ?_
    have h : ∀ p : Nat, emaK p (fun j => (mirrorB m (b j)).c) j = m - emaK p (fun j => (b j).c) j :=
      fun p => emaK_mirror fun _ _ => rfl
    rw [h, h]; ring
  refine ⟨h1, h2, ?_⟩
  show (difF p q (mir m x) i -. emaF s (difF p q (mir m x)) i) *. fl 2 = .fin 0 -. (difF p q x i -. emaF s (difF p q x) i) *. fl 2
  rw [h1, h2, dif_fin hC, emaF_fin, fl_fin]
  simp only [finF, sub_fin, mul_fin]
  congr 1; ring

theorem awesome_mir (hC : Cols n x b) (i : Nat) : (Awesome.out (mir m x) i).value = .fin 0 -. (Awesome.out x i).value := by
  show subF (emaF (5 : Nat) (medF (mir m x)) i) (emaF (34 : Nat) (medF (mir m x)) i) =
    .fin 0 -. subF (emaF (5 : Nat) (medF x) i) (emaF (34 : Nat) (medF x) i)
  rw [med_fin hC, med_fin (hC.mirror m)]
  refine neg_of_mirror (m := m) (emaF_fin _ _ _) (emaF_fin _ _ _) (emaF_mirror fun j _ => ?_) (emaF_mirror fun j _ => ?_) <;>
  · simp only [mirrorB_l, mirrorB_h]; ring

/-- **C117**, differences of averages change their sign. -/
theorem C117_differences (p s q : Nat) :
    Negated (Numeric (K := K)) (APO p q).toIndicator Rec.value ∧ Negated (Numeric (K := K)) Awesome.toIndicator Rec.value ∧
    Negated (Numeric (K := K)) (MACD p s q).toIndicator MACD.Data.dif ∧
    Negated (Numeric (K := K)) (MACD p s q).toIndicator MACD.Data.dea ∧
    Negated (Numeric (K := K)) (MACD p s q).toIndicator MACD.Data.macd :=
  ⟨(turns_of (APO.makes _ _).yields fun m n x b hC _ i _ _ => dif_mir hC p q i).numeric,
    (turns_of Awesome.appends.yields fun m n x b hC _ i _ _ => awesome_mir hC i).numeric,
    (turns_of (MACD.makes _ _ _).yields fun m n x b hC _ i _ _ => (macd_mir hC p s q i).1).numeric,
    (turns_of (MACD.makes _ _ _).yields fun m n x b hC _ i _ _ => (macd_mir hC p s q i).2.1).numeric,
    (turns_of (MACD.makes _ _ _).yields fun m n x b hC _ i _ _ => (macd_mir hC p s q i).2.2).numeric⟩

/-! ## Volume lines -/

theorem obv_mir (hC : Cols n x b) (i : Nat) : ∃ a : K, obvF x i = .fin a ∧ obvF (mir m x) i = .fin (-a) := by
  have f0 : (fl 0 : XF K) = .fin 0 := by simp
  induction i with
  | zero => exact ⟨0, by rw [obvF, f0], by rw [obvF, f0, neg_zero]⟩
  | succ k ih =>
    obtain ⟨a, h1, h2⟩ := ih
    rw [obvF, obvF, h1, h2, hC.cl, hC.vo, (hC.mirror m).cl, (hC.mirror m).vo]
    simp only [finF, GoFloat.gt, lt_fin, eq_fin, mirrorB_c, mirrorB_v, add_fin, sub_fin, sub_lt_sub_iff_left,
      decide_eq_true_iff, f0]
    rcases lt_trichotomy (b (k + 1)).c (b k).c with h | h | h
    · exact ⟨a - (b (k + 1)).v, by rw [if_neg (not_lt.mpr h.le), if_pos h], by rw [if_pos h, neg_sub]; congr 1; ring⟩
    · exact ⟨a, by simp [h], by simp [h]⟩
    · exact ⟨a + (b (k + 1)).v, by rw [if_pos h], by rw [if_neg (not_lt.mpr h.le), if_pos h]; congr 1; ring⟩

theorem mfv_fin (hC : Cols n x b) :
    mfv x = finF fun i => ((b i).c - (b i).l - ((b i).h - (b i).c)) / ((b i).h - (b i).l) * (b i).v := by
  funext i
  rw [mfv, hC.cl, hC.lo, hC.hi, hC.vo]
  simp only [finF, subF_fin, safeDiv_fin_eq, mul_fin]

theorem psum_neg {a a' : Nat → K} (h : ∀ j, a' j = -a j) (k : Nat) : psum a' k = -psum a k := by
  induction k with
  | zero => simp [psum]
  | succ k ih => rw [psum_succ, psum_succ, ih, h k]; ring

/-- What bar `j` adds to the accumulation/distribution line. -/
def adStep (b : Bar K) : K := b.v * ((b.c - b.l - (b.h - b.c)) / (b.h - b.l))

theorem adStep_mirror (m : K) (b : Bar K) : adStep (mirrorB m b) = -adStep b := by
  simp only [adStep, mirrorB_c, mirrorB_h, mirrorB_l, mirrorB_v, sub_sub_sub_cancel_left]
  rw [← mul_neg, ← neg_div]
  congr 2; ring

/-- The candle closes within its range. -/
abbrev CloseInside (b : Bar K) : Prop := b.l ≤ b.c ∧ b.c ≤ b.h

theorem mirror_inside {b : Bar K} (h : CloseInside b) : CloseInside (mirrorB m b) :=
  ⟨sub_le_sub_left h.2 m, sub_le_sub_left h.1 m⟩

theorem ad_fin (hC : Cols n x b) (hw : ∀ i < n, CloseInside (b i)) {i : Nat} (hi : i < n) :
    adF x i = .fin (∑ j ∈ Finset.range (i + 1), adStep (b j)) := by
  have f0 : (fl 0 : XF K) = .fin 0 := by simp
  induction i with
  | zero =>
    have h := adVal_fin hC 0 (hw 0 hi) 0
    rw [f0] at h
    rw [adF, f0, h]; simp [adStep]
  | succ k ih =>
    rw [adF, ih (by omega), adVal_fin hC (k + 1) (hw _ hi), Finset.sum_range_succ _ (k + 1)]; rfl

theorem ad_mir_fin (hC : Cols n x b) (hw : ∀ i < n, CloseInside (b i)) {i : Nat} (hi : i < n) :
    adF (mir m x) i = .fin (-∑ j ∈ Finset.range (i + 1), adStep (b j)) := by
  rw [ad_fin (hC.mirror m) (fun j hj => mirror_inside (hw j hj)) hi, ← Finset.sum_neg_distrib]
  exact congrArg _ (Finset.sum_congr rfl fun j _ => adStep_mirror m (b j))

theorem emaF_upto {F : Type} [GoFloat F] (p : Int) {y z : Nat → F} {i : Nat} (h : ∀ j ≤ i, y j = z j) : emaF p y i = emaF p z i := by
  induction i with
  | zero => simp only [emaF]; rw [h 0 (le_refl _)]
  | succ k ih => simp only [emaF]; rw [ih fun j hj => h j (by omega), h (k + 1) (le_refl _)]

theorem chaikin_mir (hC : Cols n x b) (hw : ∀ i < n, CloseInside (b i)) (p q : Nat) {i : Nat} (hi : i < n) :
    (Chaikin.out p q (mir m x) i).value = .fin 0 -. (Chaikin.out p q x i).value := by
  have e1 : ∀ p : Nat, emaF p (adF x) i = emaF p (finF fun i => ∑ j ∈ Finset.range (i + 1), adStep (b j)) i :=
    fun p => emaF_upto _ fun j hj => ad_fin hC hw (by omega)
  have e2 : ∀ p : Nat, emaF p (adF (mir m x)) i = emaF p (finF fun i => -∑ j ∈ Finset.range (i + 1), adStep (b j)) i :=
    fun p => emaF_upto _ fun j hj => ad_mir_fin hC hw (by omega)
  show subF (emaF p (adF (mir m x)) i) (emaF q (adF (mir m x)) i) = .fin 0 -. subF (emaF p (adF x) i) (emaF q (adF x) i)
  rw [e1, e1, e2, e2]
  exact neg_of_mirror (m := 0) (emaF_fin _ _ _) (emaF_fin _ _ _) (emaF_mirror fun j _ => (zero_sub _).symm)
    (emaF_mirror fun j _ => (zero_sub _).symm)

/-- **C117**, lines that weigh volume by direction change their sign. The accumulation/distribution line and its oscillator
need candles that close within their range. -/
theorem C117_volume_lines (p q : Nat) :
    Negated (Numeric (K := K)) OBV Rec.value ∧ Negated (Numeric (K := K)) (CMF p) Rec.value ∧
    Negated (Bars (K := K) CloseInside) AD Rec.value ∧
    Negated (Bars (K := K) CloseInside) (Chaikin p q).toIndicator Chaikin.Data.value ∧
    Negated (Bars (K := K) CloseInside) (Chaikin p q).toIndicator Chaikin.Data.ad ∧
    Kept (Numeric (K := K)) (VolOsc p q) Rec.value Rec.value := by
  refine ⟨(turns_of OBV.grows.yields fun m n x b hC _ i _ _ => ?_).numeric,
    (turns_of (CMF.appends _).yields fun m n x b hC _ i _ _ => ?_).numeric,
    turns_of AD.appends.yields fun m n x b hC hw i _ hi => ?_,
    turns_of (Chaikin.appends _ _).yields fun m n x b hC hw i _ hi => chaikin_mir hC hw p q hi,
    turns_of (Chaikin.appends _ _).yields fun m n x b hC hw i _ hi => ?_,
    (turns_of (VolOsc.makes _ _).yields fun m n x b hC _ i _ _ => rfl).numeric⟩
  · obtain ⟨a, h1, h2⟩ := obv_mir (m := m) hC i
    show obvF (mir m x) i = .fin 0 -. obvF x i
    rw [h1, h2, sub_zero_fin]
  · show safeDiv (runSum p (mfv (mir m x)) (i + 1)) (runSum p (vo (mir m x)) (i + 1)) =
      .fin 0 -. safeDiv (runSum p (mfv x) (i + 1)) (runSum p (vo x) (i + 1))
    rw [mfv_fin hC, mfv_fin (hC.mirror m), hC.vo, (hC.mirror m).vo, runSum_fin, runSum_fin, runSum_fin, runSum_fin]
    rw [safeDiv_fin_eq, safeDiv_fin_eq, sub_zero_fin]
    simp only [mirrorB_v]
    have h := psum_neg (a := fun i => ((b i).c - (b i).l - ((b i).h - (b i).c)) / ((b i).h - (b i).l) * (b i).v)
      (a' := fun i => ((mirrorB m (b i)).c - (mirrorB m (b i)).l - ((mirrorB m (b i)).h - (mirrorB m (b i)).c)) /
        ((mirrorB m (b i)).h - (mirrorB m (b i)).l) * (b i).v) fun j => by
      simp only [mirrorB_c, mirrorB_h, mirrorB_l, sub_sub_sub_cancel_left]
      rw [← neg_mul, ← neg_div]
      congr 2; ring
    rw [h, h, ← neg_div]
    congr 2; ring
  · show adF (mir m x) i = .fin 0 -. adF x i
    rw [ad_fin hC hw hi, ad_mir_fin hC hw hi, sub_zero_fin]
  · show adF (mir m x) i = .fin 0 -. adF x i
    rw [ad_fin hC hw hi, ad_mir_fin hC hw hi, sub_zero_fin]

/-! ## Deviations -/

theorem abs_reflect (m a c : K) : |m - a - (m - c)| = |a - c| := by
  rw [show m - a - (m - c) = -(a - c) by ring, abs_neg]

theorem accum_upto {F : Type} [GoFloat F] {f g : Nat → F} {lo c : Nat} (h : ∀ j, lo ≤ j → j < lo + c → f j = g j) :
    accum f lo c = accum g lo c := by
  induction c with
  | zero => rfl
  | succ c ih => rw [accum, accum, ih fun j h1 h2 => h j h1 (by omega), h (lo + c) (by omega) (by omega)]

theorem cci_mirror {p sp : Nat} (hp : 0 < p) (hs : 0 < sp) {a a' : Nat → K} (h : ∀ j, a' j = m - a j) (i : Nat) :
    cciF p sp (finF a') i = .fin 0 -. cciF p sp (finF a) i := by
  have f0 : (fl 0 : XF K) = .fin 0 := by simp
  rw [cciF, cciF]
  split
  · rw [f0, sub_fin, sub_zero]
  · next hi =>
    have e := smaF_mirror hs (i := i) fun j _ => h j
    rw [smaF_fin hs, smaF_fin hs, sub_fin] at e
    set u := (psum a (i + 1) - psum a (i + 1 - sp)) / ((min sp (i + 1) : Nat) : K) with hu
    set u' := (psum a' (i + 1) - psum a' (i + 1 - sp)) / ((min sp (i + 1) : Nat) : K) with hu'
    have e' : u' = m - u := XF.fin.inj e
    have hm : meanDevF p (finF a') (smaF sp (finF a')) i = meanDevF p (finF a) (smaF sp (finF a)) i := by
      rw [meanDevF, meanDevF, if_neg hi, if_neg hi]
      congr 1
      refine accum_upto fun j _ _ => ?_
      rw [smaF_fin hs, smaF_fin hs, ← hu, ← hu', e']
      simp only [finF, sub_fin, abs_fin', h j, abs_reflect]
    rw [hm, smaF_fin hs, smaF_fin hs, ← hu, ← hu', e']
    obtain ⟨d, hd⟩ : ∃ d, meanDevF p (finF a) (smaF sp (finF a)) i = .fin d := by
      rw [meanDevF, if_neg hi, smaF_fin hs, ← hu]
      have : (fun j => GoFloat.abs (finF a j -. .fin u)) = finF fun j => |a j - u| := by
        funext j; simp only [finF, sub_fin, abs_fin']
      rw [this, accum_fin, fl_nat, div_fin (natCast_ne hp)]
      exact ⟨_, rfl⟩
    rw [hd, lit_fin, mul_fin]
    simp only [finF, sub_fin, h i]
    rw [← div_neg_fin]
    congr 2; ring

theorem aiCci_mirror {p : Nat} {a a' : Nat → K} (h : ∀ j, a' j = m - a j) (i : Nat) :
    aiCciF p (finF a') i = .fin 0 -. aiCciF p (finF a) i := by
  have f0 : (fl 0 : XF K) = .fin 0 := by simp
  rw [aiCciF, aiCciF]
  by_cases hi : p = 0 ∨ i + 1 < p
  · rw [devF, devF, if_pos hi, if_pos hi, f0, if_pos (by simp), if_pos (by simp), sub_fin, sub_zero]
  · have hp : 0 < p := by omega
    have hp0 : (p : K) ≠ 0 := natCast_ne hp
    set s := ∑ j ∈ Finset.range p, a (i + 1 - p + j) with hs
    have es : ∑ j ∈ Finset.range p, a' (i + 1 - p + j) = p * m - s := by
      simp only [h, Finset.sum_sub_distrib, Finset.sum_const, Finset.card_range, nsmul_eq_mul, hs]
    have ed : devF p (finF a') i = devF p (finF a) i := by
      rw [devF, devF, if_neg hi, if_neg hi]
      congr 1
      refine accum_upto fun j _ _ => ?_
      rw [accum_fin, accum_fin, es, ← hs, fl_nat, div_fin hp0, div_fin hp0]
      simp only [finF, sub_fin, abs_fin', h j]
      rw [show ((p : K) * m - s) / p = m - s / p by field_simp, abs_reflect]
    obtain ⟨d, hd⟩ : ∃ d, devF p (finF a) i = .fin d := by
      rw [devF, if_neg hi, accum_fin, ← hs, fl_nat, div_fin hp0]
      have : (fun j => GoFloat.abs (finF a j -. .fin (s / p))) = finF fun j => |a j - s / p| := by
        funext j; simp only [finF, sub_fin, abs_fin']
      rw [this, accum_fin, div_fin hp0]
      exact ⟨_, rfl⟩
    have e1 : maF p (finF a') i = .fin ((p * m - s) / p) := by rw [maF_fin hp, if_neg (by omega), es]
    have e2 : maF p (finF a) i = .fin (s / p) := by rw [maF_fin hp, if_neg (by omega)]
    rw [ed, hd, e1, e2]
    split
    · rw [f0, sub_fin, sub_zero]
    · rw [lit_fin, mul_fin]
      simp only [finF, sub_fin, h i]
      rw [← div_neg_fin]
      congr 2
      field_simp
      ring

theorem cci_mir {p sp : Nat} (hp : 0 < p) (hs : 0 < sp) (hC : Cols n x b) (i : Nat) :
    (CCIi.out p sp (mir m x) i).value = .fin 0 -. (CCIi.out p sp x i).value := by
  show cciF p sp (typF (mir m x)) i = .fin 0 -. cciF p sp (typF x) i
  rw [typ_fin hC, typ_fin (hC.mirror m)]
  refine cci_mirror (m := m) hp hs (fun j => ?_) i
  simp only [mirrorB_c, mirrorB_h, mirrorB_l]; ring

theorem aiCci_mir {p : Nat} (hC : Cols n x b) (i : Nat) :
    (AiCCI.out p (mir m x) i).value = .fin 0 -. (AiCCI.out p x i).value := by
  show aiCciF p (cl (mir m x)) i = .fin 0 -. aiCciF p (cl x) i
  rw [hC.cl, (hC.mirror m).cl]
  exact aiCci_mirror (m := m) (fun j => rfl) i

/-- **C117**, the commodity channel indices change their sign. -/
theorem C117_cci {p sp : Nat} (hp : 0 < p) (hs : 0 < sp) :
    Negated (Numeric (K := K)) (CCIi p sp).toIndicator Rec.value ∧
    Negated (Numeric (K := K)) (AiCCI p).toIndicator Rec.value :=
  ⟨(turns_of (CCIi.appends _ _).yields fun m n x b hC _ i _ _ => cci_mir hp hs hC i).numeric,
    (turns_of (AiCCI.appends _).yields fun m n x b hC _ i _ _ => aiCci_mir hC i).numeric⟩

/-! ## Directions -/

theorem wilderRange_mirror (m : K) (b : Bar K) (c : K) : wilderRange (mirrorB m b) (m - c) = wilderRange b c := by
  simp only [wilderRange, mirrorB_h, mirrorB_l, sub_sub_sub_cancel_left]
  rw [max_comm |c - b.l|, abs_sub_comm c, abs_sub_comm c]

theorem rangeAt_mirror (m : K) (b : Nat → Bar K) : rangeAt (fun i => mirrorB m (b i)) = rangeAt b := by
  funext i
  cases i with
  | zero => rfl
  | succ k => exact wilderRange_mirror m (b (k + 1)) (b k).c

theorem moveUp_mirror (m : K) (b : Nat → Bar K) : moveUp (fun i => mirrorB m (b i)) = moveDown b := by
  funext i
  cases i with
  | zero => rfl
  | succ k => simp only [moveUp, moveDown, mirrorB_h, mirrorB_l, sub_sub_sub_cancel_left]

theorem moveDown_mirror (m : K) (b : Nat → Bar K) : moveDown (fun i => mirrorB m (b i)) = moveUp b := by
  funext i
  cases i with
  | zero => rfl
  | succ k => simp only [moveUp, moveDown, mirrorB_h, mirrorB_l, sub_sub_sub_cancel_left]

theorem adx_mir (hC : Cols n x b) (p l : Int) : adxPlus p l (mir m x) = adxMinus p l x ∧ adxMinus p l (mir m x) = adxPlus p l x := by
  have hC' := hC.mirror m
  constructor <;> funext i
  · rw [adxPlus, adxMinus, (adxDM_fin hC').1, (adxDM_fin hC).2, adxTR_fin hC, adxTR_fin hC', moveUp_mirror, rangeAt_mirror]
  · rw [adxPlus, adxMinus, (adxDM_fin hC').2, (adxDM_fin hC).1, adxTR_fin hC, adxTR_fin hC', moveDown_mirror, rangeAt_mirror]

theorem xf_add_comm (a c : XF K) : a +. c = c +. a := by
  cases a <;> cases c <;> first | rfl | exact congrArg XF.fin (add_comm _ _)

theorem xf_abs_sub (a c : XF K) : GoFloat.abs (a -. c) = GoFloat.abs (c -. a) := by
  cases a <;> cases c <;> first | rfl | (rw [sub_fin, sub_fin, abs_fin', abs_fin', abs_sub_comm])

theorem dx_mir (hC : Cols n x b) (p l : Int) : adxDX p l (mir m x) = adxDX p l x := by
  funext i
  rw [adxDX, adxDX, (adx_mir hC p l).1, (adx_mir hC p l).2, xf_abs_sub, xf_add_comm]

theorem vortex_mir (hC : Cols n x b) :
    vmPlus (mir m x) = vmMinus x ∧ vmMinus (mir m x) = vmPlus x ∧ vmTR (mir m x) = vmTR x := by
  have hC' := hC.mirror m
  refine ⟨?_, ?_, ?_⟩ <;> funext i
  · rw [vmPlus, vmMinus, hC'.hi, hC'.lo, hC.hi, hC.lo]
    simp only [finF, sub_fin, abs_fin', mirrorB_h, mirrorB_l, sub_sub_sub_cancel_left]
    rw [abs_sub_comm]
  · rw [vmPlus, vmMinus, hC'.hi, hC'.lo, hC.hi, hC.lo]
    simp only [finF, sub_fin, abs_fin', mirrorB_h, mirrorB_l, sub_sub_sub_cancel_left]
    rw [abs_sub_comm]
  · rw [vmTR, vmTR, hC'.hi, hC'.lo, hC'.cl, hC.hi, hC.lo, hC.cl]
    simp only [finF, sub_fin, abs_fin', max_fin, mirrorB_h, mirrorB_l, mirrorB_c, sub_sub_sub_cancel_left]
    congr 2
    rw [max_comm, abs_sub_comm, abs_sub_comm (b (i - 1)).c]

/-- **C117**, the directional lines change places: the upward line of the market upside down is the downward line of the
market; the strength of the trend stays. -/
theorem C117_directional (p l q : Int) :
    Kept (Numeric (K := K)) (ADX p l) ADX.Data.plus ADX.Data.minus ∧
    Kept (Numeric (K := K)) (ADX p l) ADX.Data.minus ADX.Data.plus ∧
    Kept (Numeric (K := K)) (ADX p l) ADX.Data.adx ADX.Data.adx ∧
    Kept (Numeric (K := K)) (Vortex q) Vortex.Data.plus Vortex.Data.minus ∧
    Kept (Numeric (K := K)) (Vortex q) Vortex.Data.minus Vortex.Data.plus := by
  refine ⟨(turns_of (ADX.makes _ _).yields fun m n x b hC _ i _ _ => congrFun (adx_mir hC p l).2 i).numeric,
    (turns_of (ADX.makes _ _).yields fun m n x b hC _ i _ _ => congrFun (adx_mir hC p l).1 i).numeric,
    (turns_of (ADX.makes _ _).yields fun m n x b hC _ i _ _ => ?_).numeric,
    (turns_of (Vortex.appends _).yields fun m n x b hC _ i _ _ => ?_).numeric,
    (turns_of (Vortex.appends _).yields fun m n x b hC _ i _ _ => ?_).numeric⟩
  · show smaF l.toNat (adxDX p l (mir m x)) i = smaF l.toNat (adxDX p l x) i
    rw [dx_mir hC]
  · show viMinus q.toNat (mir m x) i = viPlus q.toNat x i
    rw [viMinus, viPlus, (vortex_mir hC).2.1, (vortex_mir hC).2.2]
  · show viPlus q.toNat (mir m x) i = viMinus q.toNat x i
    rw [viMinus, viPlus, (vortex_mir hC).1, (vortex_mir hC).2.2]

/-! ## Percentages -/

/-- A candle with a range. -/
abbrev HasRange (b : Bar K) : Prop := b.l < b.h

theorem stochK_mir {p : Nat} (hp : 0 < p) (hC : Cols n x b) :
    ∃ a a' : Nat → K, stochK p x = finF a ∧ stochK p (mir m x) = finF a' ∧
      ∀ i, (∀ j ≤ i, HasRange (b j)) → a' i = 100 - a i := by
  have h : ∀ i, ∃ H L : K, maxF p (hi x) i = .fin H ∧ minF p (lo x) i = .fin L ∧ ((∀ j ≤ i, HasRange (b j)) → L < H) := fun i => by
    obtain ⟨H, e1, -, hH⟩ := maxF_fin hp (fun j => (b j).h) i
    obtain ⟨L, e2, -, hL⟩ := minF_fin hp (fun j => (b j).l) i
    refine ⟨H, L, by rw [hC.hi, e1], by rw [hC.lo, e2], fun hr => ?_⟩
    exact lt_of_le_of_lt (hL ⟨i, by omega, le_refl _, rfl⟩) (lt_of_lt_of_le (hr i (le_refl _)) (hH ⟨i, by omega, le_refl _, rfl⟩))
  choose H L e1 e2 hr using h
  refine ⟨fun i => ((b i).c - L i) / (H i - L i) * 100, fun i => (H i - (b i).c) / (H i - L i) * 100, ?_, ?_, ?_⟩
  · funext i
    rw [stochK, stochF, Int.toNat_natCast, e1, e2, hC.cl, fl_fin]
    simp only [finF, subF_fin, safeDiv_fin_eq, mul_fin]; push_cast; rfl
  · funext i
    rw [stochK, stochF, Int.toNat_natCast, maxHi_mir hp hC, minLo_mir hp hC, e1, e2, (hC.mirror m).cl, fl_fin]
    simp only [finF, sub_fin, subF_fin, safeDiv_fin_eq, mul_fin, mirrorB_c, sub_sub_sub_cancel_left]; push_cast; rfl
  · intro i hj
    have h0 : H i - L i ≠ 0 := ne_of_gt (sub_pos.mpr (hr i hj))
    field_simp
    ring

theorem williams_mir {p : Nat} (hp : 0 < p) (hC : Cols n x b) (i : Nat) :
    williamsF p (mir m x) i = .fin (-100) -. williamsF p x i := by
  obtain ⟨H, e1, -⟩ := maxF_fin hp (fun j => (b j).h) i
  obtain ⟨L, e2, -⟩ := minF_fin hp (fun j => (b j).l) i
  rw [williamsF, williamsF, Int.toNat_natCast, maxHi_mir hp hC, minLo_mir hp hC, hC.hi, hC.lo, e1, e2, hC.cl,
    (hC.mirror m).cl, fl_fin]
  simp only [finF, sub_fin, mirrorB_c, sub_sub_sub_cancel_left]
  by_cases h : H - L = 0
  · have hL : L = H := by linarith
    subst hL
    rw [sub_self, div_fin_eq, div_fin_eq, if_pos rfl, if_pos rfl, ← neg_sub L (b i).c]
    generalize L - (b i).c = u
    have hm : ((-100 : Int) : K) < 0 := by norm_num
    have hm' : ¬ (0 : K) < ((-100 : Int) : K) := not_lt.mpr hm.le
    have e1 : (XF.pinf *. .fin ((-100 : Int) : K) : XF K) = .ninf := by
      show infSign ((-100 : Int) : K) = _
      rw [infSign, if_neg hm', if_pos hm]
    have e2 : (XF.ninf *. .fin ((-100 : Int) : K) : XF K) = .pinf := by
      show infSign (-((-100 : Int) : K)) = _
      rw [infSign, if_pos (by linarith)]
    rcases lt_trichotomy u 0 with h | h | h
    · have : infSign u = (.ninf : XF K) := by rw [infSign, if_neg (not_lt.mpr h.le), if_pos h]
      have h2 : infSign (-u) = (.pinf : XF K) := by rw [infSign, if_pos (by linarith)]
      rw [this, h2, e1, e2]; rfl
    · subst h
      rw [neg_zero]; simp only [infSign, lt_irrefl, if_false]; rfl
    · have : infSign u = (.pinf : XF K) := by rw [infSign, if_pos h]
      have h2 : infSign (-u) = (.ninf : XF K) := by rw [infSign, if_neg (by linarith), if_pos (by linarith)]
      rw [this, h2, e1, e2]; rfl
  · rw [div_fin h, div_fin h, mul_fin, mul_fin, sub_fin]
    congr 1
    push_cast
    field_simp
    ring

/-- A candle whose range is not negligible for `Kdj`. -/
abbrev HasKdjRange (b : Bar K) : Prop := 1 / 1000000 ≤ b.h - b.l

theorem rsv_mir {p : Nat} (hp : 1 ≤ p) (hC : Cols n x b) {i : Nat} (hf : p ≤ i + 1) (hr : ∀ j ≤ i, HasKdjRange (b j)) :
    ∃ r : K, rsvF p x i = .fin r ∧ rsvF p (mir m x) i = .fin (100 - r) := by
  obtain ⟨H, L, hH, hL, e⟩ := rsvF_fin hp hC hf
  obtain ⟨H', L', hH', hL', e'⟩ := rsvF_fin hp (hC.mirror m) hf
  have eH : H' = m - L := by
    obtain ⟨j, j1, j2, j3⟩ := hH'.1
    obtain ⟨l, l1, l2, l3⟩ := hL.1
    refine le_antisymm ?_ (hH'.2 ⟨l, l1, l2, by rw [mirrorB_h, l3]⟩)
    have := hL.2 ⟨j, j1, j2, rfl⟩
    rw [mirrorB_h] at j3
    linarith
  have eL : L' = m - H := by
    obtain ⟨j, j1, j2, j3⟩ := hL'.1
    obtain ⟨l, l1, l2, l3⟩ := hH.1
    refine le_antisymm (hL'.2 ⟨l, l1, l2, by rw [mirrorB_l, l3]⟩) ?_
    have := hH.2 ⟨j, j1, j2, rfl⟩
    rw [mirrorB_l] at j3
    linarith
  have hHL : 1 / 1000000 ≤ H - L := by
    have h1 := hH.2 ⟨i, by omega, le_refl _, rfl⟩
    have h2 := hL.2 ⟨i, by omega, le_refl _, rfl⟩
    have h3 : 1 / 1000000 ≤ (b i).h - (b i).l := hr i (le_refl _)
    linarith
  have h0 : H - L ≠ 0 := by
    have : (0 : K) < 1 / 1000000 := by norm_num
    exact ne_of_gt (by linarith)
  refine ⟨_, e, ?_⟩
  rw [e', eH, eL]
  simp only [mirrorB_c, sub_sub_sub_cancel_left, if_neg (not_lt.mpr hHL)]
  congr 1
  field_simp
  ring

theorem kdj_mir {p : Nat} (hp : 1 ≤ p) (hC : Cols n x b) {i : Nat} (hr : ∀ j ≤ i, HasKdjRange (b j)) :
    ∃ k d : K, kF p x i = .fin k ∧ dF p x i = .fin d ∧ kF p (mir m x) i = .fin (100 - k) ∧ dF p (mir m x) i = .fin (100 - d) := by
  have e50 : (fl 50 : XF K) = .fin 50 := by simp
  have e23 : (twoThirds : XF K) = .fin (2 / 3) := by rw [twoThirds, lit_fin]; push_cast; rfl
  have e13 : (oneThird : XF K) = .fin (1 / 3) := by rw [oneThird, lit_fin]; push_cast; rfl
  have e50' : (50 : K) = 100 - 50 := by norm_num
  induction i with
  | zero => exact ⟨50, 50, by rw [kF, e50], by rw [dF, e50], by rw [kF, e50, ← e50'], by rw [dF, e50, ← e50']⟩
  | succ i ih =>
    obtain ⟨k, d, h1, h2, h3, h4⟩ := ih fun j hj => hr j (by omega)
    by_cases hf : kdjFull p (i + 1) = true
    · have hf' : p ≤ i + 1 + 1 := by unfold kdjFull at hf; simp at hf; omega
      obtain ⟨r, r1, r2⟩ := rsv_mir (m := m) hp hC hf' hr
      have ek : kF p x (i + 1) = .fin (2 / 3 * k + 1 / 3 * r) := by
        rw [kF, if_pos hf, h1, r1, e23, e13, mul_fin, mul_fin, add_fin]
      have ek' : kF p (mir m x) (i + 1) = .fin (100 - (2 / 3 * k + 1 / 3 * r)) := by
        rw [kF, if_pos hf, h3, r2, e23, e13, mul_fin, mul_fin, add_fin]; congr 1; ring
      refine ⟨_, 2 / 3 * d + 1 / 3 * (2 / 3 * k + 1 / 3 * r), ek, ?_, ek', ?_⟩
      · rw [dF, if_pos hf, h2, ek, e23, e13, mul_fin, mul_fin, add_fin]
      · rw [dF, if_pos hf, h4, ek', e23, e13, mul_fin, mul_fin, add_fin]; congr 1; ring
    · exact ⟨50, 50, by rw [kF, if_neg hf, e50], by rw [dF, if_neg hf, e50], by rw [kF, if_neg hf, e50, ← e50'],
        by rw [dF, if_neg hf, e50, ← e50']⟩

theorem kdj_out_mir {p : Nat} (hp : 1 ≤ p) (hC : Cols n x b) {i : Nat} (hr : ∀ j ≤ i, HasKdjRange (b j)) :
    (KDJ.out p (mir m x) i).k = .fin 100 -. (KDJ.out p x i).k ∧ (KDJ.out p (mir m x) i).d = .fin 100 -. (KDJ.out p x i).d ∧
    (KDJ.out p (mir m x) i).j = .fin 100 -. (KDJ.out p x i).j := by
  obtain ⟨k, d, h1, h2, h3, h4⟩ := kdj_mir (m := m) hp hC hr
  refine ⟨?_, ?_, ?_⟩
  · show kF p (mir m x) i = .fin 100 -. kF p x i
    rw [h1, h3, sub_fin]
  · show dF p (mir m x) i = .fin 100 -. dF p x i
    rw [h2, h4, sub_fin]
  · show fl 3 *. kF p (mir m x) i -. fl 2 *. dF p (mir m x) i = .fin 100 -. (fl 3 *. kF p x i -. fl 2 *. dF p x i)
    rw [h1, h2, h3, h4, fl_fin, fl_fin]
    simp only [mul_fin, sub_fin]
    congr 1; push_cast; ring

/-- Percentages from 0 to 100: `100 - a`. -/
def Complemented (P : Item (XF K) → Prop) (I : Indicator (XF K)) (k : Nat) (u : I.D → XF K) : Prop :=
  Turns P I k u u fun _ a => .fin 100 -. a

/-- **C117**, percentages become their complement: the stochastic when every candle has a range, `Kdj` when every range is at
least the code's threshold `1e-6` (its first line starts with zeros, which stay), and Williams %R without a condition. -/
theorem C117_percentages {p : Nat} (hp : 1 ≤ p) :
    Complemented (Bars (K := K) HasRange) (Stoch p).toIndicator 0 KD.k ∧
    Complemented (Bars (K := K) HasRange) (Stoch p).toIndicator 0 KD.d ∧
    Turns (Numeric (K := K)) (Williams p).toIndicator 0 Rec.value Rec.value (fun _ a => .fin (-100) -. a) ∧
    Complemented (Bars (K := K) HasKdjRange) (KDJ p).toIndicator (p - 1) KDJ.Data.rsv ∧
    Complemented (Bars (K := K) HasKdjRange) (KDJ p).toIndicator 0 KDJ.Data.k ∧
    Complemented (Bars (K := K) HasKdjRange) (KDJ p).toIndicator 0 KDJ.Data.d ∧
    Complemented (Bars (K := K) HasKdjRange) (KDJ p).toIndicator 0 KDJ.Data.j := by
  refine ⟨turns_of (Stoch.appends _).yields fun m n x b hC hr i _ hi => ?_,
    turns_of (Stoch.appends _).yields fun m n x b hC hr i _ hi => ?_,
    (turns_of (Williams.appends _).yields fun m n x b hC _ i _ _ => williams_mir hp hC i).numeric,
    turns_of (KDJ.makes _).yields fun m n x b hC hr i hk hi => ?_,
    turns_of (KDJ.makes _).yields fun m n x b hC hr i _ hi => (kdj_out_mir hp hC fun j hj => hr j (by omega)).1,
    turns_of (KDJ.makes _).yields fun m n x b hC hr i _ hi => (kdj_out_mir hp hC fun j hj => hr j (by omega)).2.1,
    turns_of (KDJ.makes _).yields fun m n x b hC hr i _ hi => (kdj_out_mir hp hC fun j hj => hr j (by omega)).2.2⟩
  · obtain ⟨a, a', h1, h2, h3⟩ := stochK_mir (m := m) hp hC
    show stochK p (mir m x) i = .fin 100 -. stochK p x i
    rw [h1, h2]
    simp only [finF, sub_fin]
    rw [h3 i fun j hj => hr j (by omega)]
  · obtain ⟨a, a', h1, h2, h3⟩ := stochK_mir (m := m) hp hC
    show smaF 3 (stochK p (mir m x)) i = .fin 100 -. smaF 3 (stochK p x) i
    rw [h1, h2]
    exact smaF_mirror (by norm_num) fun j hj => h3 j fun l hl => hr l (by omega)
  · obtain ⟨r, r1, r2⟩ := rsv_mir (m := m) hp hC (i := i) (by omega) fun j hj => hr j (by omega)
    show rsvF p (mir m x) i = .fin 100 -. rsvF p x i
    rw [r1, r2, sub_fin]

/-- **C117**, `Rsi`: from the candle at which the average exists, the indices of the two markets add up to 100, or both are 0
(which the code stores when there is no movement to speak of). -/
theorem C117_rsi {p : Nat} (hp : 2 ≤ p) (m : K) {it : Item (XF K)} (hn : Numeric it) {d d' : List (Rec (XF K))}
    (hd : (RSI p).data it = .ok d) (hd' : (RSI p).data (mirror m it) = .ok d') {i : Nat} (hpi : p ≤ i) {r r' : Rec (XF K)}
    (hr : d[i]? = some r) (hr' : d'[i]? = some r') :
    (∃ a : K, r.value = .fin a ∧ r'.value = .fin (100 - a)) ∨ (r.value = .fin 0 ∧ r'.value = .fin 0) := by
  obtain ⟨x, b, hx, hC, -⟩ := (numeric_bars hn).cols
  obtain ⟨hi, -, rfl, -⟩ := at_index (b := b) (RSI.appends p).yields hx hd hr
  obtain ⟨-, -, rfl, -⟩ := at_index (b := b) (RSI.appends p).yields (mirror_tab hx m) hd' hr'
  show (∃ a : K, rsiF p (cl x) i = .fin a ∧ rsiF p (cl (mir m x)) i = .fin (100 - a)) ∨
    (rsiF p (cl x) i = .fin 0 ∧ rsiF p (cl (mir m x)) i = .fin 0)
  rw [rsiF, rsiF, if_neg (by omega), if_neg (by omega), hC.cl, (hC.mirror m).cl, rsiW_fin (by omega), rsiW_fin (by omega)]
  simp only [mirrorB_c, sub_sub_sub_cancel_left]
  set g := wilderAvg p (fun j => max ((b j).c - (b (j - 1)).c) 0) (i - p) with hg
  set l := wilderAvg p (fun j => max ((b (j - 1)).c - (b j).c) 0) (i - p) with hl
  have g0 : 0 ≤ g := wilderAvg_nonneg (by omega) (fun j => le_max_right _ _) _
  have l0 : 0 ≤ l := wilderAvg_nonneg (by omega) (fun j => le_max_right _ _) _
  rw [rsiVal_fin g0 l0, rsiVal_fin l0 g0, add_comm l g]
  by_cases h : g + l < 1 / 100000000000000
  · right; rw [if_pos h, if_pos h]; exact ⟨rfl, rfl⟩
  · left
    have h0 : g + l ≠ 0 := fun h' => h (by rw [h']; norm_num)
    refine ⟨_, by rw [if_neg h], ?_⟩
    rw [if_neg h]
    congr 1
    field_simp
    ring

/-! ## Signals -/

theorem xf_lt_mirror (m : K) (a c : XF K) : ((.fin m -. a) <. (.fin m -. c)) = (c <. a) := by
  cases a <;> cases c <;> first | rfl | (simp only [sub_fin, lt_fin, sub_lt_sub_iff_left])

theorem xf_lt_asymm {a c : XF K} (h : (a <. c) = true) : (c <. a) = false := by
  revert h
  cases a <;> cases c <;> first | exact fun _ => rfl | exact fun h => absurd (h : false = true) Bool.false_ne_true | skip
  simp only [lt_fin, decide_eq_true_iff, decide_eq_false_iff_not]
  exact fun h => not_lt.mpr h.le

theorem xf_lt_trans {a c e : XF K} (h : (a <. c) = true) (h' : (c <. e) = true) : (a <. e) = true := by
  revert h h'
  cases a <;> cases c <;> cases e <;> first | exact fun _ _ => rfl | exact fun h => absurd (h : false = true) Bool.false_ne_true |
    exact fun _ h => absurd (h : false = true) Bool.false_ne_true | skip
  simp only [lt_fin, decide_eq_true_iff]
  exact lt_trans

/-- Two signals that exclude each other and change places. -/
theorem opposite_of {B S B' S' : Bool} (h : B' = S) (h' : S' = B) (hx : B = true → S = false) :
    (if B' then Buy else if S' then Sell else Hold : Side) = opposite (if B then Buy else if S then Sell else Hold) := by
  subst h h'
  cases S' <;> cases B' <;> first | rfl | (exact absurd (hx rfl) (by decide)) | decide

theorem cross_mir (m : K) (a c pa pc : XF K) :
    crossRule (.fin m -. a) (.fin m -. c) (.fin m -. pa) (.fin m -. pc) = opposite (crossRule a c pa pc) := by
  refine opposite_of ?_ ?_ ?_
  · simp only [GoFloat.gt, xf_lt_mirror]
  · simp only [GoFloat.gt, xf_lt_mirror]
  · simp only [GoFloat.gt, Bool.and_eq_true, Bool.and_eq_false_iff]
    exact fun h => Or.inl (xf_lt_asymm h.1)

theorem zero_refl : (fl 0 : XF K) = .fin 0 -. fl 0 := by simp

theorem cross_zero_mir (a pa : XF K) :
    crossRule (.fin 0 -. a) (fl 0) (.fin 0 -. pa) (fl 0) = opposite (crossRule a (fl 0) pa (fl 0)) := by
  have := cross_mir 0 a (fl 0) pa (fl 0)
  rwa [← zero_refl] at this

/-- The rules that buy on leaving the lower zone downwards and sell on leaving the upper zone upwards. -/
theorem zones_mir {m : K} {lo hi : XF K} (h1 : lo = .fin m -. hi) (h2 : hi = .fin m -. lo) (hlt : (lo <. hi) = true)
    (pv v : XF K) :
    (if (.fin m -. v) <. lo && (.fin m -. pv) >. lo then Buy
      else if (.fin m -. v) >. hi && (.fin m -. pv) <. hi then Sell else Hold : Side) =
    opposite (if v <. lo && pv >. lo then Buy else if v >. hi && pv <. hi then Sell else Hold) := by
  refine opposite_of ?_ ?_ ?_
  · simp only [GoFloat.gt]
    conv_lhs => rw [h1]
    simp only [xf_lt_mirror]
  · simp only [GoFloat.gt]
    conv_lhs => rw [h2]
    simp only [xf_lt_mirror]
  · simp only [GoFloat.gt, Bool.and_eq_true, Bool.and_eq_false_iff]
    exact fun h => Or.inl (xf_lt_asymm (xf_lt_trans h.1 hlt))

theorem macd_rule_mir (d e pd pe : XF K) (t t' u u' : Int) (w w' z z' : XF K) :
    MACD.rule ⟨t, .fin 0 -. pd, .fin 0 -. pe, w⟩ ⟨t', .fin 0 -. d, .fin 0 -. e, w'⟩ =
      opposite (MACD.rule ⟨u, pd, pe, z⟩ ⟨u', d, e, z'⟩) := by
  have h0 : ∀ a : XF K, ((fl 0 : XF K) <. (.fin 0 -. a)) = (a <. fl 0) := fun a => by
    conv_lhs => rw [zero_refl]
    exact xf_lt_mirror 0 _ _
  have h1 : ∀ a : XF K, ((.fin 0 -. a) <. (fl 0 : XF K)) = (fl 0 <. a) := fun a => by
    conv_lhs => rw [zero_refl]
    exact xf_lt_mirror 0 _ _
  refine opposite_of ?_ ?_ ?_
  · simp only [GoFloat.gt, xf_lt_mirror, h0, h1]
  · simp only [GoFloat.gt, xf_lt_mirror, h0, h1]
  · simp only [GoFloat.gt, Bool.and_eq_true, Bool.and_eq_false_iff]
    exact fun h => Or.inl (Or.inl (Or.inl (xf_lt_asymm h.1.1.1)))

theorem kdj_rule_mir (k d j pk pd pj : XF K) (t t' u u' : Int) (w w' z z' : XF K) :
    KDJ.rule ⟨t, w, .fin 100 -. pk, .fin 100 -. pd, .fin 100 -. pj⟩ ⟨t', w', .fin 100 -. k, .fin 100 -. d, .fin 100 -. j⟩ =
      opposite (KDJ.rule ⟨u, z, pk, pd, pj⟩ ⟨u', z', k, d, j⟩) := by
  refine opposite_of ?_ ?_ ?_
  · simp only [GoFloat.gt, xf_lt_mirror]
  · simp only [GoFloat.gt, xf_lt_mirror]
  · simp only [GoFloat.gt, Bool.and_eq_true, Bool.and_eq_false_iff]
    exact fun h => Or.inl (Or.inl (Or.inl (xf_lt_asymm h.1.1.1)))

theorem band_rule_mir {pv v pv' v' : Band (XF K)} (h1 : pv'.middle = .fin m -. pv.middle) (h2 : v'.middle = .fin m -. v.middle)
    (pc c : XF K) : Band.rule pv' v' (.fin m -. pc) (.fin m -. c) = opposite (Band.rule pv v pc c) := by
  rw [Band.rule, Band.rule, h1, h2]
  refine opposite_of ?_ ?_ ?_
  · simp only [GoFloat.gt, xf_lt_mirror]
  · simp only [GoFloat.gt, xf_lt_mirror]
  · simp only [GoFloat.gt, Bool.and_eq_true, Bool.and_eq_false_iff]
    exact fun h => Or.inl (xf_lt_asymm h.1)

theorem cl_mir (m : K) (x : Nat → Candle (XF K)) (i : Nat) : cl (mir m x) i = .fin m -. cl x i := rfl

theorem ichi_rule_mir {pv v pv' v' : Ichimoku.Data (XF K)} (h1 : pv'.spanA = .fin m -. pv.spanA)
    (h2 : v'.spanA = .fin m -. v.spanA) (h3 : pv'.spanB = .fin m -. pv.spanB) (h4 : v'.spanB = .fin m -. v.spanB)
    (pc c : XF K) : Ichimoku.rule (.fin m -. c) (.fin m -. pc) pv' v' = opposite (Ichimoku.rule c pc pv v) := by
  rw [Ichimoku.rule, Ichimoku.rule, h1, h2, h3, h4]
  refine opposite_of ?_ ?_ ?_
  · simp only [GoFloat.gt, xf_lt_mirror]
  · simp only [GoFloat.gt, xf_lt_mirror]
  · simp only [GoFloat.gt, Bool.and_eq_true, Bool.and_eq_false_iff]
    exact fun h => Or.inl (Or.inl (Or.inl (xf_lt_asymm h.1.1.1)))

theorem vegas_mir (hC : Cols n x b) (p s1 s2 l1 l2 i : Nat) :
    vegasSide (Vegas.out p s1 s2 l1 l2 (mir m x)) (mir m x) i =
      if i < 11 then Buy else opposite (vegasSide (Vegas.out p s1 s2 l1 l2 x) x i) := by
  rw [vegasSide, vegasSide]
  split
  · rfl
  · have e : ∀ j, Vegas.out p s1 s2 l1 l2 (mir m x) j = ⟨ti x j, .fin m -. (Vegas.out p s1 s2 l1 l2 x j).value,
        .fin m -. (Vegas.out p s1 s2 l1 l2 x j).short1, .fin m -. (Vegas.out p s1 s2 l1 l2 x j).short2,
        .fin m -. (Vegas.out p s1 s2 l1 l2 x j).long1, .fin m -. (Vegas.out p s1 s2 l1 l2 x j).long2⟩ := fun j => by
      show (⟨_, emaF p (cl (mir m x)) j, emaF s1 (cl (mir m x)) j, emaF s2 (cl (mir m x)) j, emaF l1 (cl (mir m x)) j,
        emaF l2 (cl (mir m x)) j⟩ : Vegas.Data (XF K)) = _
      rw [ema_mir hC, ema_mir hC, ema_mir hC, ema_mir hC, ema_mir hC]; rfl
    have hu : vegasUp (Vegas.out p s1 s2 l1 l2 (mir m x)) i = vegasDown (Vegas.out p s1 s2 l1 l2 x) i := by
      simp only [vegasUp, vegasDown, e, GoFloat.gt, xf_lt_mirror]
    have hd : vegasDown (Vegas.out p s1 s2 l1 l2 (mir m x)) i = vegasUp (Vegas.out p s1 s2 l1 l2 x) i := by
      simp only [vegasUp, vegasDown, e, GoFloat.gt, xf_lt_mirror]
    rw [hu, hd, e, show bu (mir m x) i = !bu x i from rfl]
    refine opposite_of ?_ ?_ ?_
    · simp only [GoFloat.gt, xf_lt_mirror]
    · simp only [GoFloat.gt, xf_lt_mirror, Bool.not_not]
    · simp only [GoFloat.gt, Bool.and_eq_true, Bool.and_eq_false_iff]
      exact fun h => Or.inl (Or.inl (Or.inl (Or.inl (Or.inl (Or.inl (xf_lt_asymm h.1.1.1.1.1.1))))))

/-- The other state of the `TraderXO` loop. -/
def swapXO (s : XO.St) : XO.St := ⟨s.countSell, s.countBuy, s.sellPrev, s.buyPrev⟩

/-- `XO.step` as a function of the two comparisons. -/
def xoStepB (s : XO.St) (buy sell : Bool) : XO.St × Side :=
  let countBuy := if buy then s.countBuy + 1 else s.countBuy
  let countSell := if buy then 0 else s.countSell
  let countSell := if sell then countSell + 1 else countSell
  let countBuy := if sell then 0 else countBuy
  let buysignal := decide (countBuy < 2) && decide (countBuy > 0) && decide (countSell < 1) && buy && !s.buyPrev
  let sellsignal := decide (countSell > 0) && decide (countSell < 2) && decide (countBuy < 1) && sell && !s.sellPrev
  (⟨countBuy, countSell, buy, sell⟩, if buysignal then Buy else if sellsignal then Sell else Hold)

theorem xo_step_mir (s : XO.St) (v v' : XO.Data (XF K)) (h1 : v'.fast = .fin m -. v.fast) (h2 : v'.slow = .fin m -. v.slow) :
    XO.step (swapXO s) v' = (swapXO (XO.step s v).1, opposite (XO.step s v).2) := by
  have ha : (v.slow <. v.fast) = true → (v.fast <. v.slow) = false := xf_lt_asymm
  show xoStepB (swapXO s) (v'.slow <. v'.fast) (v'.fast <. v'.slow) =
    (swapXO (xoStepB s (v.slow <. v.fast) (v.fast <. v.slow)).1, opposite (xoStepB s (v.slow <. v.fast) (v.fast <. v.slow)).2)
  rw [h1, h2, xf_lt_mirror, xf_lt_mirror]
  revert ha
  generalize (v.slow <. v.fast) = B
  generalize (v.fast <. v.slow) = S
  intro ha
  refine Prod.ext ?_ ?_
  · cases B <;> cases S <;> first | rfl | exact absurd (ha rfl) (by decide)
  · refine opposite_of ?_ ?_ ?_
    · cases B <;> cases S <;> first | exact absurd (ha rfl) (by decide) | simp [swapXO, Bool.and_comm]
    · cases B <;> cases S <;> first | exact absurd (ha rfl) (by decide) | simp [swapXO, Bool.and_comm]
    · cases B <;> cases S <;> simp

theorem xo_mir (hC : Cols n x b) (p s i : Nat) :
    (xoF (XO.out p s (mir m x)) i).1 = swapXO (xoF (XO.out p s x) i).1 ∧
    (xoF (XO.out p s (mir m x)) i).2 = opposite (xoF (XO.out p s x) i).2 := by
  induction i with
  | zero => exact ⟨rfl, rfl⟩
  | succ i ih =>
    have h := xo_step_mir (m := m) (xoF (XO.out p s x) i).1 (XO.out p s x (i + 1)) (XO.out p s (mir m x) (i + 1))
      (ema_mir hC p _) (ema_mir hC s _)
    rw [xoF, ih.1, h]
    exact ⟨rfl, rfl⟩

/-- **C117**, signals: apart from the candles the strategies never decide (they leave `Buy` there), the market upside down
gets the opposite signals. -/
theorem C117_signals {p q s l : Nat} (hp : 1 ≤ p) (hq : 1 ≤ q) :
    SidesTurn (Numeric (K := K)) (APO p q) 1 ∧ SidesTurn (Numeric (K := K)) Awesome 1 ∧
    SidesTurn (Numeric (K := K)) (MACD p s q) 1 ∧ SidesTurn (Bars (K := K) CloseInside) (Chaikin p q) 1 ∧
    SidesTurn (Numeric (K := K)) (Donchian p) 1 ∧ SidesTurn (Numeric (K := K)) (Keltner p) 1 ∧
    SidesTurn (Numeric (K := K)) (CCIi p q) 1 ∧ SidesTurn (Numeric (K := K)) (AiCCI p) 1 ∧
    SidesTurn (Numeric (K := K)) (Williams p) 1 ∧ SidesTurn (Bars (K := K) HasRange) (Stoch p) 1 ∧
    SidesTurn (Bars (K := K) HasKdjRange) (KDJ p) 1 ∧ SidesTurn (Numeric (K := K)) (XO p q) 0 ∧
    SidesTurn (Numeric (K := K)) (Ichimoku 9 p l) 9 ∧
    ∀ s1 s2 l1 l2 : Nat, SidesTurn (Numeric (K := K)) (Vegas p s1 s2 l1 l2) 11 := by
  refine ⟨(sides_of (APO.signals _ _) fun m n x b hC _ i hk _ => ?_).numeric,
    (sides_of Awesome.signals fun m n x b hC _ i hk _ => ?_).numeric,
    (sides_of (MACD.signals _ _ _) fun m n x b hC _ i hk _ => ?_).numeric,
    sides_of (Chaikin.signals _ _) fun m n x b hC hw i hk hi => ?_,
    (sides_of (Donchian.signals _) fun m n x b hC _ i hk _ => ?_).numeric,
    (sides_of (Keltner.signals _) fun m n x b hC _ i hk _ => ?_).numeric,
    (sides_of (CCIi.signals _ _) fun m n x b hC _ i hk _ => ?_).numeric,
    (sides_of (AiCCI.signals _) fun m n x b hC _ i hk _ => ?_).numeric,
    (sides_of (Williams.signals _) fun m n x b hC _ i hk _ => ?_).numeric,
    sides_of (Stoch.signals _) fun m n x b hC hr i hk hi => ?_,
    sides_of (KDJ.signals _) fun m n x b hC hr i hk hi => ?_,
    (sides_of (XO.signals _ _) fun m n x b hC _ i _ _ => (xo_mir hC p q i).2).numeric,
    (sides_of (Ichimoku.signals _ _ _) fun m n x b hC _ i hk _ => ?_).numeric,
    fun s1 s2 l1 l2 => (sides_of (Vegas.signals _ _ _ _ _) fun m n x b hC _ i hk _ => ?_).numeric⟩
  · obtain ⟨k, rfl⟩ : ∃ k, i = k + 1 := ⟨i - 1, by omega⟩
    show crossRule (difF p q (mir m x) (k + 1)) (fl 0) (difF p q (mir m x) k) (fl 0) =
      opposite (crossRule (difF p q x (k + 1)) (fl 0) (difF p q x k) (fl 0))
    rw [dif_mir hC, dif_mir hC, cross_zero_mir]
  · obtain ⟨k, rfl⟩ : ∃ k, i = k + 1 := ⟨i - 1, by omega⟩
    show crossRule (Awesome.out (mir m x) (k + 1)).value (fl 0) (Awesome.out (mir m x) k).value (fl 0) =
      opposite (crossRule (Awesome.out x (k + 1)).value (fl 0) (Awesome.out x k).value (fl 0))
    rw [awesome_mir hC, awesome_mir hC, cross_zero_mir]
  · obtain ⟨k, rfl⟩ : ∃ k, i = k + 1 := ⟨i - 1, by omega⟩
    have h1 := macd_mir (m := m) hC p s q k
    have h2 := macd_mir (m := m) hC p s q (k + 1)
    have h := macd_rule_mir (MACD.out p s q x (k + 1)).dif (MACD.out p s q x (k + 1)).dea (MACD.out p s q x k).dif
      (MACD.out p s q x k).dea (ti x k) (ti x (k + 1)) (ti x k) (ti x (k + 1)) (MACD.out p s q (mir m x) k).macd
      (MACD.out p s q (mir m x) (k + 1)).macd (MACD.out p s q x k).macd (MACD.out p s q x (k + 1)).macd
    rw [← h1.1, ← h1.2.1, ← h2.1, ← h2.2.1] at h
    exact h
  · obtain ⟨k, rfl⟩ : ∃ k, i = k + 1 := ⟨i - 1, by omega⟩
    show crossRule (Chaikin.out p q (mir m x) (k + 1)).value (fl 0) (Chaikin.out p q (mir m x) k).value (fl 0) =
      opposite (crossRule (Chaikin.out p q x (k + 1)).value (fl 0) (Chaikin.out p q x k).value (fl 0))
    rw [chaikin_mir hC hw p q hi, chaikin_mir hC hw p q (by omega), cross_zero_mir]
  · obtain ⟨k, rfl⟩ : ∃ k, i = k + 1 := ⟨i - 1, by omega⟩
    exact band_rule_mir (donchian_mid_mir hp hC k) (donchian_mid_mir hp hC (k + 1)) (cl x k) (cl x (k + 1))
  · obtain ⟨k, rfl⟩ : ∃ k, i = k + 1 := ⟨i - 1, by omega⟩
    exact band_rule_mir (ema_mir hC p k) (ema_mir hC p (k + 1)) (cl x k) (cl x (k + 1))
  · obtain ⟨k, rfl⟩ : ∃ k, i = k + 1 := ⟨i - 1, by omega⟩
    have h := zones_mir (m := (0 : K)) (lo := fl (-100)) (hi := fl 100) (by simp) (by simp) (by simp)
      (CCIi.out p q x k).value (CCIi.out p q x (k + 1)).value
    rw [← cci_mir hp hq hC, ← cci_mir hp hq hC] at h
    exact h
  · obtain ⟨k, rfl⟩ : ∃ k, i = k + 1 := ⟨i - 1, by omega⟩
    have h := zones_mir (m := (0 : K)) (lo := fl (-100)) (hi := fl 100) (by simp) (by simp) (by simp)
      (AiCCI.out p x k).value (AiCCI.out p x (k + 1)).value
    rw [← aiCci_mir hC, ← aiCci_mir hC] at h
    exact h
  · obtain ⟨k, rfl⟩ : ∃ k, i = k + 1 := ⟨i - 1, by omega⟩
    have h := zones_mir (m := (-100 : K)) (lo := fl (-80)) (hi := fl (-20)) (by simp; norm_num) (by simp; norm_num)
      (by simp; norm_num) (williamsF p x k) (williamsF p x (k + 1))
    rw [← williams_mir hp hC, ← williams_mir hp hC] at h
    exact h
  · obtain ⟨k, rfl⟩ : ∃ k, i = k + 1 := ⟨i - 1, by omega⟩
    obtain ⟨a, a', h1, h2, h3⟩ := stochK_mir (m := m) hp hC
    have hk' : ∀ j ≤ k + 1, stochK p (mir m x) j = .fin 100 -. stochK p x j := fun j hj => by
      rw [h1, h2]; simp only [finF, sub_fin]; rw [h3 j fun l hl => hr l (by omega)]
    have hd' : ∀ j ≤ k + 1, smaF 3 (stochK p (mir m x)) j = .fin 100 -. smaF 3 (stochK p x) j := fun j hj => by
      rw [h1, h2]; exact smaF_mirror (by norm_num) fun l hl => h3 l fun l' hl' => hr l' (by omega)
    show crossRule (stochK p (mir m x) (k + 1)) (smaF 3 (stochK p (mir m x)) (k + 1)) (stochK p (mir m x) k)
        (smaF 3 (stochK p (mir m x)) k) =
      opposite (crossRule (stochK p x (k + 1)) (smaF 3 (stochK p x) (k + 1)) (stochK p x k) (smaF 3 (stochK p x) k))
    rw [hk' _ (le_refl _), hk' k (by omega), hd' _ (le_refl _), hd' k (by omega), cross_mir]
  · obtain ⟨k, rfl⟩ : ∃ k, i = k + 1 := ⟨i - 1, by omega⟩
    have h1 := kdj_out_mir (m := m) hp hC (i := k) fun j hj => hr j (by omega)
    have h2 := kdj_out_mir (m := m) hp hC (i := k + 1) fun j hj => hr j (by omega)
    have h := kdj_rule_mir (KDJ.out p x (k + 1)).k (KDJ.out p x (k + 1)).d (KDJ.out p x (k + 1)).j (KDJ.out p x k).k
      (KDJ.out p x k).d (KDJ.out p x k).j (ti x k) (ti x (k + 1)) (ti x k) (ti x (k + 1)) (KDJ.out p (mir m x) k).rsv
      (KDJ.out p (mir m x) (k + 1)).rsv (KDJ.out p x k).rsv (KDJ.out p x (k + 1)).rsv
    rw [← h1.1, ← h1.2.1, ← h1.2.2, ← h2.1, ← h2.2.1, ← h2.2.2] at h
    exact h
  · have h1 := ichi_mir (m := m) hp l hC (i - 1)
    have h2 := ichi_mir (m := m) hp l hC i
    show ichiSide 9 p l (mir m x) i = opposite (ichiSide 9 p l x i)
    rw [ichiSide, ichiSide, if_neg (by omega), if_neg (by omega), cl_mir, cl_mir]
    exact ichi_rule_mir h1.2.2.1 h2.2.2.1 h1.2.2.2 h2.2.2.2 _ _
  · show vegasSide (Vegas.out p s1 s2 l1 l2 (mir m x)) (mir m x) i = _
    rw [vegas_mir hC, if_neg (by omega)]

end main

/-! ## What does not turn -/

/-- One price per candle. -/
def onePriceItem (cs : List Rat) : Item (XF Rat) := barItem (cs.map fun c => ⟨c, c, c, c, 1⟩)

theorem numeric_oneItem (cs : List Rat) : Numeric (onePriceItem cs) := ⟨_, holds_barItem _⟩

theorem sidesTurn_refuted {I : Strat (XF Rat)} {k : Nat} (m : Rat) (cs : List Rat)
    (h : (I.signals (mirror m (onePriceItem cs))).toOption.map (List.drop k) ≠
      (I.signals (onePriceItem cs)).toOption.map fun s => (s.drop k).map opposite) : ¬ SidesTurn (Numeric (K := Rat)) I k :=
  fun ht => h (ht m _ (numeric_oneItem cs))

/-- C117 refuted for `Atr`: a gap downwards is not counted, so a market that falls by a gap and the same market upside down
have different average ranges. The Keltner bands inherit it: the width of the channel differs. -/
theorem C117_atr_refuted :
    ¬ Turns (Numeric (K := Rat)) (ATR 1) 1 ATR.Data.atr ATR.Data.atr (fun _ a => a) ∧
    ¬ Turns (Numeric (K := Rat)) (Keltner 1).toIndicator 1 Band.upper Band.lower (fun m a => .fin m -. a) :=
  ⟨fun h => absurd (h 20 _ (numeric_oneItem [10, 5])) (by decide +kernel),
    fun h => absurd (h 20 _ (numeric_oneItem [10, 5])) (by decide +kernel)⟩

/-- C117 refuted for the signals of `Rsi`: both signals are given on falling crossings, so a sell of the market is no buy of
the market upside down. -/
theorem C117_rsi_signals_refuted : ¬ SidesTurn (Numeric (K := Rat)) (RSI 2) 3 :=
  sidesTurn_refuted 20 [1, 2, 3, 3, 2, 5] (by decide +kernel)

/-- C117 refuted for the trailing stops: `UTBot` and the two supertrends start from 0 as if the price came from there, so the
first turn depends on the direction. -/
theorem C117_trailing_refuted :
    ¬ SidesTurn (Numeric (K := Rat)) (UT 1 1) 1 ∧ ¬ SidesTurn (Numeric (K := Rat)) (ST 1 1 true) 1 ∧
    ¬ SidesTurn (Numeric (K := Rat)) (PPST 1 1 (.fin 1)) 1 :=
  ⟨sidesTurn_refuted 20 [1, 2, 3] (by decide +kernel), sidesTurn_refuted 20 [1, 2, 3, 3, 3, 1] (by decide +kernel),
    sidesTurn_refuted 20 [1, 2, 3, 3, 3, 1] (by decide +kernel)⟩

/-! ## Examples -/

/-- The hypotheses are met by an ordinary series, and its mirror image is another one. -/
example : Numeric (onePriceItem [10, 5, 6]) ∧ (mirror 20 (onePriceItem [10, 5, 6])).candles.map (·.close) = [.fin 10, .fin 15, .fin 14] :=
  ⟨numeric_oneItem _, by decide +kernel⟩

/-- A series with ranges for the conditions on candles. -/
def rangedItem : Item (XF Rat) :=
  barItem [⟨3, 5, 2, 4, 7⟩, ⟨4, 6, 3, 6, 2⟩, ⟨6, 7, 3, 3, 5⟩, ⟨3, 3, 1, 2, 4⟩, ⟨2, 8, 2, 7, 9⟩]

example : Bars (K := Rat) CloseInside rangedItem ∧ Bars (K := Rat) HasRange rangedItem ∧ Bars (K := Rat) HasKdjRange rangedItem :=
  ⟨⟨_, holds_barItem _, by decide +kernel⟩, ⟨_, holds_barItem _, by decide +kernel⟩, ⟨_, holds_barItem _, by decide +kernel⟩⟩

/-- Values that change, so that the statements are about something. -/
example : ((EMA 2).data rangedItem).toOption.map (List.map Rec.value) ≠
      ((EMA 2).data (mirror 10 rangedItem)).toOption.map (List.map Rec.value) ∧
    ((Stoch 2).data rangedItem).toOption.map (List.map KD.k) = some [.fin (200 / 3), .fin 100, .fin 0, .fin (50 / 3), .fin (600 / 7)] ∧
    ((Stoch 2).data (mirror 10 rangedItem)).toOption.map (List.map KD.k) =
      some [.fin (100 / 3), .fin 0, .fin 100, .fin (250 / 3), .fin (100 / 7)] := by decide +kernel

/-- Signals that change. -/
example : ((XO 1 2).signals (onePriceItem [5, 6, 4, 7])).toOption = some [Hold, Buy, Sell, Buy] ∧
    ((XO 1 2).signals (mirror 10 (onePriceItem [5, 6, 4, 7]))).toOption = some [Hold, Sell, Buy, Sell] := by decide +kernel

/-- `Rsi` in its two cases. -/
example : ((RSI 2).data (onePriceItem [5, 6, 4, 7])).toOption.map (List.map Rec.value) ≠
      ((RSI 2).data (mirror 10 (onePriceItem [5, 6, 4, 7]))).toOption.map (List.map Rec.value) ∧
    ((RSI 2).data (onePriceItem [5, 5, 5, 5])).toOption.map (List.map Rec.value) = some [.fin 0, .fin 0, .fin 0, .fin 0] := by
  decide +kernel

end Verif.Props
