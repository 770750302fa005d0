import Verif.Props.StableSides
import Verif.Props.VolumeLines
import Verif.Props.Scale
import Verif.Props.Shift

/-!
# Indicators on Heikin-Ashi candles (C134)

`ToHeikinAshi` returns an item like any other. In exact arithmetic its candles hold `haBars`, so whatever is proved of an indicator for
all items holds for it on Heikin-Ashi candles.
-/

set_option linter.unusedSectionVars false

namespace Verif.Props
open Verif Verif.Klines Verif.Ta Verif.Ind GoFloat XF

variable {F : Type} [GoFloat F] {K : Type} [Field K] [LinearOrder K] [IsStrictOrderedRing K]

/-- The Heikin-Ashi bar of `b` whose open is taken from `prev`. It has no volume. -/
def haBar (b prev : Bar K) : Bar K :=
  { o := (prev.o + prev.c) / 2
    h := Max.max b.h (Max.max ((prev.o + prev.c) / 2) b.c)
    l := Max.max b.l (Min.min ((prev.o + prev.c) / 2) b.c)
    c := (b.o + b.h + b.l + b.c) / 4
    v := 0 }

/-- The Heikin-Ashi bars: the first two take the open from themselves, the others from the bar before. -/
def haBars : List (Bar K) → List (Bar K)
  | [] => []
  | [b] => [haBar b b]
  | b :: b' :: rest => haBar b b :: haBar b' b' :: List.zipWith haBar rest (b' :: rest)

theorem haBars_tab (n : Nat) (b : Nat → Bar K) :
    haBars (tab n b) = tab n fun i => if 1 < i then haBar (b i) (b (i - 1)) else haBar (b i) (b i) := by
  match n with
  | 0 => rfl
  | 1 => rfl
  | n + 2 =>
    have hs : ∀ {α : Type} (k : Nat) (f : Nat → α), tab (k + 1) f = f 0 :: tab k fun i => f (i + 1) := by
      intro α k f
      simp [tab, List.range_succ_eq_map, Function.comp_def]
    rw [hs, hs, haBars, hs (n + 1), hs n]
    simp only [not_lt_zero, if_false, show ¬ (1 < 0 + 1) by omega]
    congr 2
    refine List.ext_getElem? fun i => ?_
    rw [List.getElem?_zipWith]
    by_cases hi : i < n
    · rw [tab_getElem?_lt hi, tab_getElem?_lt hi]
      cases i with
      | zero => simp
      | succ i =>
        rw [List.getElem?_cons_succ, tab_getElem?_lt (by omega)]
        simp [show 1 < i + 1 + 1 + 1 by omega]
    · rw [List.getElem?_eq_none (l := tab n _) (by simpa using hi), List.getElem?_eq_none (l := tab n _) (by simpa using hi)]

/-- **C134** The Heikin-Ashi series of a series of numbers is a series of numbers, without volume. -/
theorem C134_bars {it : Item (XF K)} {bs : List (Bar K)} (hb : Holds it bs) :
    ∃ it', ToHeikinAshi it = .ok it' ∧ Holds it' (haBars bs) := by
  obtain ⟨x, b, hx, hbs, hc⟩ := hb.cols
  refine ⟨_, ToHeikinAshi_tab it _ x hx, ?_⟩
  unfold Holds
  rw [hbs, haBars_tab, tab_length, map_tab, map_tab]
  refine tab_ext fun i hi => ?_
  have ho : ∀ j, (x j).open_ = .fin (b j).o := fun j => congrFun hc.op j
  have hh : ∀ j, (x j).high = .fin (b j).h := fun j => congrFun hc.hi j
  have hl : ∀ j, (x j).low = .fin (b j).l := fun j => congrFun hc.lo j
  have hcl : ∀ j, (x j).close = .fin (b j).c := fun j => congrFun hc.cl j
  have e2 : (2 : K) ≠ 0 := two_ne_zero
  have e4 : (4 : K) ≠ 0 := by norm_num
  simp only [haCandle, haOpen, ho, hh, hl, hcl]
  split <;> simp only [haBar, add_fin, fl_fin, div_fin e2, div_fin e4, max_fin, min_fin, Candle.zero, Int.cast_ofNat, Int.cast_zero]

/-- **C134** In any arithmetic: a Heikin-Ashi candle depends on its own candle and the one before, and on nothing else. The textbook
average, whose open is taken from the Heikin-Ashi candle before, depends on all of them. -/
theorem C134_two_candles {it it' r r' : Item F} (h : ToHeikinAshi it = .ok r) (h' : ToHeikinAshi it' = .ok r') {i : Nat}
    (h0 : it.candles[i]? = it'.candles[i]?) (h1 : 1 < i → it.candles[i - 1]? = it'.candles[i - 1]?) :
    r.candles[i]? = r'.candles[i]? := by
  obtain ⟨x, hx⟩ := candles_tab it
  obtain ⟨x', hx'⟩ := candles_tab it'
  rw [ToHeikinAshi_tab it _ x hx] at h
  rw [ToHeikinAshi_tab it' _ x' hx'] at h'
  cases h
  cases h'
  simp only
  by_cases hi : i < it.candles.length
  · have hi' : i < it'.candles.length := by
      by_contra hn
      rw [List.getElem?_eq_getElem hi, List.getElem?_eq_none (by omega)] at h0
      cases h0
    have e0 : x i = x' i := by
      rw [hx, hx', tab_getElem?_lt hi, tab_getElem?_lt hi'] at h0
      exact Option.some.inj h0
    rw [tab_getElem?_lt hi, tab_getElem?_lt hi']
    have eo : haOpen x i = haOpen x' i := by
      unfold haOpen
      by_cases hg : 1 < i
      · have e1 : x (i - 1) = x' (i - 1) := by
          have := h1 hg
          rw [hx, hx', tab_getElem?_lt (by omega), tab_getElem?_lt (by omega)] at this
          exact Option.some.inj this
        rw [if_pos hg, if_pos hg, e1]
      · rw [if_neg hg, if_neg hg, e0]
    simp only [haCandle, eo, e0]
  · have hi' : ¬ i < it'.candles.length := by
      intro hn
      rw [List.getElem?_eq_getElem hn, List.getElem?_eq_none (by omega)] at h0
      cases h0
    rw [List.getElem?_eq_none (by simpa using hi), List.getElem?_eq_none (by simpa using hi')]

/-! ## Units, feeds and higher prices -/

theorem haBars_map {f : Bar K → Bar K} (hf : ∀ b p, haBar (f b) (f p) = f (haBar b p)) (bs : List (Bar K)) :
    haBars (bs.map f) = (haBars bs).map f := by
  match bs with
  | [] => rfl
  | [b] => simp [haBars, hf]
  | b :: b' :: rest =>
    simp only [List.map_cons, haBars, hf, List.map_zipWith]
    congr 2
    rw [← List.map_cons, List.zipWith_map]
    simp only [hf]

/-- The bar with prices times `c` and volume times `e`. -/
def Bar.scaled (c e : K) (b : Bar K) : Bar K := ⟨c * b.o, c * b.h, c * b.l, c * b.c, e * b.v⟩

/-- The bar with `a` added to its prices. -/
def Bar.raised (a : K) (b : Bar K) : Bar K := ⟨b.o + a, b.h + a, b.l + a, b.c + a, b.v⟩

/-- **C134** Heikin-Ashi candles follow a change of the unit and an amount added to every price. -/
theorem C134_units (bs : List (Bar K)) :
    (∀ c e, 0 < c → haBars (bs.map (Bar.scaled c e)) = (haBars bs).map (Bar.scaled c e)) ∧
    ∀ a, haBars (bs.map (Bar.raised a)) = (haBars bs).map (Bar.raised a) := by
  refine ⟨fun c e hc => haBars_map (fun b p => ?_) bs, fun a => haBars_map (fun b p => ?_) bs⟩
  · have e1 : (c * p.o + c * p.c) / 2 = c * ((p.o + p.c) / 2) := by ring
    have e2 : (c * b.o + c * b.h + c * b.l + c * b.c) / 4 = c * ((b.o + b.h + b.l + b.c) / 4) := by ring
    simp only [haBar, Bar.scaled, e1, e2, mul_max_of_nonneg _ _ hc.le, mul_min_of_nonneg _ _ hc.le, mul_zero]
  · have e1 : (p.o + a + (p.c + a)) / 2 = (p.o + p.c) / 2 + a := by ring
    have e2 : (b.o + a + (b.h + a) + (b.l + a) + (b.c + a)) / 4 = (b.o + b.h + b.l + b.c) / 4 + a := by ring
    simp only [haBar, Bar.raised, e1, e2, max_add_add_right, min_add_add_right]

theorem haBars_get {bs : List (Bar K)} {i : Nat} {q : Bar K} (h : (haBars bs)[i]? = some q) :
    ∃ b p, bs[i]? = some b ∧ (1 < i → bs[i - 1]? = some p) ∧ (¬ 1 < i → p = b) ∧ q = haBar b p := by
  have hbs : bs = tab bs.length fun i => bs[i]?.getD ⟨0, 0, 0, 0, 0⟩ := eq_tab_of_forall rfl fun i hi => by simp [hi]
  generalize hf : (fun i : Nat => bs[i]?.getD (⟨0, 0, 0, 0, 0⟩ : Bar K)) = f at hbs
  clear hf
  generalize bs.length = n at hbs
  subst hbs
  rw [haBars_tab] at h
  have hi : i < n := by simpa using (List.getElem?_eq_some_iff.mp h).1
  rw [tab_getElem?_lt hi] at h
  obtain rfl := Option.some.inj h
  by_cases hg : 1 < i
  · exact ⟨f i, f (i - 1), tab_getElem?_lt hi, fun _ => tab_getElem?_lt (by omega), fun h => absurd hg h, by simp [hg]⟩
  · exact ⟨f i, f i, tab_getElem?_lt hi, fun h => absurd h hg, fun _ => rfl, by simp [hg]⟩

theorem haBars_length (bs : List (Bar K)) : (haBars bs).length = bs.length := by
  match bs with
  | [] => rfl
  | [b] => rfl
  | b :: b' :: rest => simp [haBars]

/-- **C134** Feeds that differ by at most `e` have Heikin-Ashi candles that differ by at most `e`: the bounds of C130 and C132 hold on
Heikin-Ashi candles too. -/
theorem C134_near {e : K} {bs bs' : List (Bar K)} (h : NearBars e bs bs') : NearBars e (haBars bs) (haBars bs') := by
  refine ⟨by rw [haBars_length, haBars_length, h.1], fun i q q' hq hq' => ?_⟩
  obtain ⟨b, p, h1, h2, h3, rfl⟩ := haBars_get hq
  obtain ⟨b', p', k1, k2, k3, rfl⟩ := haBars_get hq'
  obtain ⟨n1, n2, n3, n4, -⟩ := h.2 i b b' h1 k1
  have hp : |p.o - p'.o| ≤ e ∧ |p.c - p'.c| ≤ e := by
    by_cases hg : 1 < i
    · obtain ⟨m1, -, -, m4, -⟩ := h.2 _ _ _ (h2 hg) (k2 hg)
      exact ⟨m1, m4⟩
    · rw [h3 hg, k3 hg]; exact ⟨n1, n4⟩
  have ho : |(p.o + p.c) / 2 - (p'.o + p'.c) / 2| ≤ e := by
    have g1 := abs_le.mp hp.1
    have g2 := abs_le.mp hp.2
    exact abs_le.mpr ⟨by linarith [g1.1, g2.1], by linarith [g1.2, g2.2]⟩
  refine ⟨ho, ?_, ?_, ?_, rfl⟩
  · exact (abs_max_sub_max_le_max _ _ _ _).trans (max_le n2 ((abs_max_sub_max_le_max _ _ _ _).trans (max_le ho n4)))
  · exact (abs_max_sub_max_le_max _ _ _ _).trans (max_le n3 ((abs_min_sub_min_le_max _ _ _ _).trans (max_le ho n4)))
  · have g1 := abs_le.mp n1
    have g2 := abs_le.mp n2
    have g3 := abs_le.mp n3
    have g4 := abs_le.mp n4
    exact abs_le.mpr ⟨by simp only [haBar]; linarith [g1.1, g2.1, g3.1, g4.1], by simp only [haBar]; linarith [g1.2, g2.2, g3.2, g4.2]⟩

/-- No price of the second series is below that of the first. -/
def NoLower (bs bs' : List (Bar K)) : Prop :=
  bs.length = bs'.length ∧ ∀ (i : Nat) b b', bs[i]? = some b → bs'[i]? = some b' → b.o ≤ b'.o ∧ b.h ≤ b'.h ∧ b.l ≤ b'.l ∧ b.c ≤ b'.c

/-- **C134** Higher prices give Heikin-Ashi candles with higher prices. -/
theorem C134_higher {bs bs' : List (Bar K)} (h : NoLower bs bs') : NoLower (haBars bs) (haBars bs') := by
  refine ⟨by rw [haBars_length, haBars_length, h.1], fun i q q' hq hq' => ?_⟩
  obtain ⟨b, p, h1, h2, h3, rfl⟩ := haBars_get hq
  obtain ⟨b', p', k1, k2, k3, rfl⟩ := haBars_get hq'
  obtain ⟨n1, n2, n3, n4⟩ := h.2 i b b' h1 k1
  have hp : p.o ≤ p'.o ∧ p.c ≤ p'.c := by
    by_cases hg : 1 < i
    · obtain ⟨m1, -, -, m4⟩ := h.2 _ _ _ (h2 hg) (k2 hg)
      exact ⟨m1, m4⟩
    · rw [h3 hg, k3 hg]; exact ⟨n1, n4⟩
  have ho : (p.o + p.c) / 2 ≤ (p'.o + p'.c) / 2 := by linarith [hp.1, hp.2]
  refine ⟨ho, max_le_max n2 (max_le_max ho n4), max_le_max n3 (min_le_min ho n4), ?_⟩
  simp only [haBar]
  linarith

/-- **C134** For candles whose open and close lie between low and high, every Heikin-Ashi price lies between the lower low and the
higher high of the candle and the one before. -/
theorem C134_inside {bs : List (Bar K)} (hw : ∀ b ∈ bs, b.WF) {i : Nat} {q : Bar K} (hq : (haBars bs)[i]? = some q) :
    ∃ b p, bs[i]? = some b ∧ (bs[i - 1]? = some p ∨ p = b) ∧
      ∀ a, a = q.o ∨ a = q.h ∨ a = q.l ∨ a = q.c → Min.min p.l b.l ≤ a ∧ a ≤ Max.max p.h b.h := by
  obtain ⟨b, p, h1, h2, h3, rfl⟩ := haBars_get hq
  have hpp : bs[i - 1]? = some p ∨ p = b := by
    by_cases hg : 1 < i
    · exact .inl (h2 hg)
    · exact .inr (h3 hg)
  refine ⟨b, p, h1, hpp, ?_⟩
  obtain ⟨w1, w2, w3, w4⟩ := hw b (List.mem_of_getElem? h1)
  obtain ⟨v1, v2, v3, v4⟩ : p.WF := by
    rcases hpp with h | h
    · exact hw p (List.mem_of_getElem? h)
    · rw [h]; exact ⟨w1, w2, w3, w4⟩
  have ho : p.l ≤ (p.o + p.c) / 2 ∧ (p.o + p.c) / 2 ≤ p.h := ⟨by linarith, by linarith⟩
  simp only [haBar]
  rintro a (rfl | rfl | rfl | rfl)
  · exact ⟨(min_le_left _ _).trans ho.1, ho.2.trans (le_max_left _ _)⟩
  · exact ⟨(min_le_right _ _).trans ((w1.trans w2).trans (le_max_left _ _)),
      max_le (le_max_right _ _) (max_le (ho.2.trans (le_max_left _ _)) (w4.trans (le_max_right _ _)))⟩
  · exact ⟨(min_le_right _ _).trans (le_max_left _ _),
      max_le ((w1.trans w2).trans (le_max_right _ _)) ((min_le_right _ _).trans (w4.trans (le_max_right _ _)))⟩
  · exact ⟨(min_le_right _ _).trans (by linarith), le_trans (by linarith) (le_max_right _ _)⟩

/-! ## Volume -/

theorem haBars_volume {bs : List (Bar K)} {b : Bar K} (h : b ∈ haBars bs) : b.v = 0 := by
  obtain ⟨i, hi⟩ := List.mem_iff_getElem?.mp h
  obtain ⟨_, _, -, -, -, rfl⟩ := haBars_get hi
  rfl

theorem col_volume (bs : List (Bar K)) (j : Nat) : col Bar.v (haBars bs) j = 0 := by
  unfold col
  cases h : (haBars bs)[j]? with
  | none => simp
  | some b => simp [haBars_volume (List.mem_of_getElem? h)]

/-- **C134** Heikin-Ashi candles have no volume. On balance volume, volume price trend, force index, ease of movement, Chaikin money
flow and the volume weighted average are 0 at every Heikin-Ashi candle, whatever the market did. -/
theorem C134_no_volume {p : Nat} (hp : 0 < p) {bs : List (Bar K)} {it : Item (XF K)} (hb : Holds it (haBars bs)) {i : Nat}
    {d : List (Rec (XF K))} {r : Rec (XF K)} (hr : d[i]? = some r)
    (hd : OBV.data it = .ok d ∨ (VPT p).data it = .ok d ∨ (Force p).data it = .ok d ∨ (EMV p).data it = .ok d ∨
      (CMF p).data it = .ok d ∨ (VWMA p).data it = .ok d) : r.value = .fin 0 := by
  rcases hd with hd | hd | hd | hd | hd | hd
  · rw [C50_obv_sum hb hd hr]
    congr 1
    refine Finset.sum_eq_zero fun j _ => ?_
    simp [signedVolume, col_volume]
  · rw [C80_volume_price_trend hb hd hr]
    congr 1
    exact Finset.sum_eq_zero fun j _ => by rw [col_volume, zero_mul]
  · obtain ⟨u, h1, h2, h3⟩ := C80_force hb hd
    rw [h1 i r hr]
    congr 1
    have hi : i < (haBars bs).length := by
      obtain ⟨x, b, hx, hbs, hc⟩ := hb.cols
      exact (at_index (b := b) (Force.appends p).yields hx hd hr).1
    clear hr
    induction i with
    | zero => rw [h2, col_volume, mul_zero]
    | succ i ih => rw [h3 i hi, ih (by omega), col_volume]; simp
  · rw [C80_ease hp hb hd hr]
    congr 1
    rw [winSum, Finset.sum_eq_zero fun j _ => by rw [col_volume]; simp, zero_div]
  · rw [(C47_cmf hb hd hr).1]
    have : winSum p i (col Bar.v (haBars bs)) = 0 := by rw [winSum]; exact Finset.sum_eq_zero fun j _ => col_volume _ _
    rw [if_pos this]
  · rw [(C47_vwma hb hd hr).1]
    have : winSum p i (col Bar.v (haBars bs)) = 0 := by rw [winSum]; exact Finset.sum_eq_zero fun j _ => col_volume _ _
    simp [this]

/-- **C134** The negative volume index, on the other hand, follows the close of every Heikin-Ashi candle. -/
theorem C134_negative_volume {bs : List (Bar K)} {it : Item (XF K)} (hb : Holds it (haBars bs)) (hz : ∀ b ∈ haBars bs, b.c ≠ 0)
    {d : List (Rec (XF K))} (hd : NVI.data it = .ok d) {i : Nat} {r : Rec (XF K)} (hr : d[i]? = some r) :
    r.value = .fin (1000 * (col Bar.c (haBars bs) i / col Bar.c (haBars bs) 0)) :=
  C80_negative_volume_falling hb hz hd hr fun j _ => by rw [col_volume, col_volume]

/-! ## What Heikin-Ashi candles are supposed to be -/

/-- **C134 is false for the textbook open**, the middle of the Heikin-Ashi candle before; and the mark `IsBullMarket` tells the colour
of the raw candle: here it says rising where the Heikin-Ashi candle falls from 19/2 to 17/4. -/
theorem C134_textbook_refuted : ∃ r a b, ToHeikinAshi (barItem [⟨8, 9, 7, 8, 1⟩, ⟨10, 12, 9, 9, 1⟩, (⟨4, 5, 3, 5, 1⟩ : Bar ℚ)]) = .ok r ∧
    r.candles[1]? = some a ∧ r.candles[2]? = some b ∧ a.open_ = .fin (19 / 2) ∧ a.close = .fin 10 ∧
    b.open_ = .fin (19 / 2) ∧ b.open_ ≠ .fin ((19 / 2 + 10) / 2) ∧ b.close = .fin (17 / 4) ∧ b.isBull = true := by
  refine ⟨_, _, _, rfl, rfl, rfl, ?_⟩
  decide +kernel

/-- Two feeds within 1/10 of each other, their Heikin-Ashi candles, and a feed whose volume is lost. -/
example : NearBars (1 / 10) [⟨8, 9, 7, 8, 1⟩, (⟨10, 12, 9, 9, 1⟩ : Bar ℚ)] [⟨8, 9, 7, 8 + 1 / 10, 1⟩, ⟨10, 12, 9, 9, 1⟩] ∧
    haBars [⟨8, 9, 7, 8, 1⟩, (⟨10, 12, 9, 9, 1⟩ : Bar ℚ)] = [⟨8, 9, 8, 8, 0⟩, ⟨19 / 2, 12, 9, 10, 0⟩] ∧
    (OBV.data (barItem [⟨8, 9, 7, 8, 1⟩, (⟨10, 12, 9, 9, 1⟩ : Bar ℚ)])).map (·.map Rec.value) = .ok [.fin 0, .fin 1] := by
  refine ⟨⟨rfl, fun i b b' h1 h2 => ?_⟩, ?_, by decide +kernel⟩
  · match i with
    | 0 | 1 =>
      obtain rfl := Option.some.inj h1
      obtain rfl := Option.some.inj h2
      decide +kernel
    | i + 2 => simp at h1
  · simp [haBars, haBar]
    norm_num

end Verif.Props
