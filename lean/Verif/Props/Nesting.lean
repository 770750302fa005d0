import Verif.Props.TaPivot
import Verif.Props.Percent
import Verif.Props.F64Lines

/-!
# Longer windows and larger multipliers (C137)
-/

set_option linter.unusedSectionVars false

namespace Verif.Props
open Verif Verif.Klines Verif.Ta Verif.Ind GoFloat XF

section
variable {F L : Type} [GoFloat F] [LinearOrder L]

theorem window_widen {α : Type} {p q i : Nat} {xs : List α} (hpq : p ≤ q) {w : α} (h : w ∈ window p i xs) : w ∈ window q i xs := by
  obtain ⟨j, h1, h2, h3⟩ := mem_window.mp h
  exact mem_window.mpr ⟨j, by omega, h2, h3⟩

/-- **C137** for the windows themselves, in every number type with ordered comparisons: a longer period never
gives a smaller maximum nor a larger minimum. -/
theorem C137_extremes (o : OrdKey F L) {p q : Nat} (hp : 1 ≤ p) (hpq : p ≤ q) {xs : List F} (hg : ∀ v ∈ xs, o.good v) :
    (∀ {r r' : List F}, Ta.Max p xs = .ok r → Ta.Max q xs = .ok r' →
      ∀ (i : Nat) v v', r[i]? = some v → r'[i]? = some v' → o.key v ≤ o.key v') ∧
    (∀ {r r' : List F}, Ta.Min p xs = .ok r → Ta.Min q xs = .ok r' →
      ∀ (i : Nat) v v', r[i]? = some v → r'[i]? = some v' → o.key v' ≤ o.key v) := by
  constructor
  · intro r r' hr hr' i v v' hv hv'
    obtain ⟨_, e, -, h⟩ := C02_max_window o p hp xs hg
    obtain ⟨_, e', -, h'⟩ := C02_max_window o q (by omega) xs hg
    obtain rfl := Except.ok.inj (hr.symm.trans e)
    obtain rfl := Except.ok.inj (hr'.symm.trans e')
    obtain ⟨⟨w, hw, hk⟩, -⟩ := h i v hv
    rw [← hk]
    exact (h' i v' hv').2 w (window_widen hpq hw)
  · intro r r' hr hr' i v v' hv hv'
    obtain ⟨_, e, -, h⟩ := C02_min_window o p hp xs hg
    obtain ⟨_, e', -, h'⟩ := C02_min_window o q (by omega) xs hg
    obtain rfl := Except.ok.inj (hr.symm.trans e)
    obtain rfl := Except.ok.inj (hr'.symm.trans e')
    obtain ⟨⟨w, hw, hk⟩, -⟩ := h i v hv
    rw [← hk]
    exact (h' i v' hv').2 w (window_widen hpq hw)

/-- **C137** (channels): at every candle the Donchian channel of a longer period contains the one of a shorter
period. Holds in float64 as in exact numbers: `o` is any order the comparisons follow. -/
theorem C137_donchian (o : OrdKey F L) {p q : Nat} (hp : 1 ≤ p) (hpq : p ≤ q) {it : Item F}
    (hg : ∀ c ∈ it.candles, o.good c.close) {d d' : List (Band F)} (hd : (Donchian p).data it = .ok d)
    (hd' : (Donchian q).data it = .ok d') {i : Nat} {r r' : Band F} (hr : d[i]? = some r) (hr' : d'[i]? = some r') :
    o.key r.upper ≤ o.key r'.upper ∧ o.key r'.lower ≤ o.key r.lower := by
  obtain ⟨x, hx⟩ := candles_tab it
  obtain ⟨-, rfl⟩ := yields_inv (Donchian.appends (p : Int)).yields hx hd
  obtain ⟨-, rfl⟩ := yields_inv (Donchian.appends (q : Int)).yields hx hd'
  have hi : i < it.candles.length := by simpa using (List.getElem?_eq_some_iff.mp hr).1
  generalize it.candles.length = n at *
  rw [tab_getElem?_lt hi] at hr hr'
  obtain rfl := Option.some.inj hr
  obtain rfl := Option.some.inj hr'
  have hg' : ∀ v ∈ tab n (cl x), o.good v := by
    intro v hv
    obtain ⟨j, hj, rfl⟩ := mem_tab.mp hv
    exact hg (x j) (by rw [hx]; exact mem_tab.mpr ⟨j, hj, rfl⟩)
  obtain ⟨h1, h2⟩ := C137_extremes o hp hpq hg'
  have e1 : ∀ p : Nat, 1 ≤ p → Ta.Max p (tab n (cl x)) = .ok (tab n (maxF p (cl x))) := fun p hp => Max_tab (by omega) _ _
  have e2 : ∀ p : Nat, 1 ≤ p → Ta.Min p (tab n (cl x)) = .ok (tab n (minF p (cl x))) := fun p hp => Min_tab (by omega) _ _
  exact ⟨h1 (e1 p hp) (e1 q (by omega)) i _ _ (tab_getElem?_lt hi) (tab_getElem?_lt hi),
    h2 (e2 p hp) (e2 q (by omega)) i _ _ (tab_getElem?_lt hi) (tab_getElem?_lt hi)⟩

theorem window_shift {α : Type} {l l' r r' i : Nat} {xs : List α} (hl : l ≤ l') (hr : r ≤ r') (hi : l' + r' ≤ i) {w : α}
    (h : w ∈ window (l + r + 1) (i - (r' - r)) xs) : w ∈ window (l' + r' + 1) i xs := by
  obtain ⟨j, h1, h2, h3⟩ := mem_window.mp h
  exact mem_window.mpr ⟨j, by omega, by omega, h3⟩

/-- **C137** (pivots): a pivot high of a wide window is a pivot high of every narrower one, reported `r' - r`
candles earlier with the same value. -/
theorem C137_pivot_high (o : OrdKey F L) {l l' r r' : Nat} (hl : l ≤ l') (hr : r ≤ r') {xs : List F} (hg : ∀ v ∈ xs, o.good v)
    {ps ps' : List F} (h : PivotHigh xs l r = .ok ps) (h' : PivotHigh xs l' r' = .ok ps') {i : Nat} {v' : F}
    (hv' : ps'[i]? = some v') (h0 : v' ≠ fl 0) :
    ∃ v, ps[i - (r' - r)]? = some v ∧ o.key v = o.key v' := by
  obtain ⟨_, e, hlen, -, hp⟩ := C32_pivot_high o l r xs hg
  obtain ⟨_, e', hlen', hz, hp'⟩ := C32_pivot_high o l' r' xs hg
  obtain rfl := Except.ok.inj (h.symm.trans e)
  obtain rfl := Except.ok.inj (h'.symm.trans e')
  have hi : l' + r' ≤ i := Nat.le_of_not_lt fun hlt => h0 (hz i v' hlt hv')
  have hin : i < xs.length := by rw [← hlen']; exact (List.getElem?_eq_some_iff.mp hv').1
  have hc : xs[i - r']? = some xs[i - r'] := List.getElem?_eq_getElem (by omega)
  have hv : ps[i - (r' - r)]? = some ps[i - (r' - r)] := List.getElem?_eq_getElem (by omega)
  obtain ⟨a1, a2⟩ := hp' i v' _ hi hv' hc
  obtain ⟨b1, -⟩ := hp (i - (r' - r)) _ xs[i - r'] (by omega) hv (by rw [show i - (r' - r) - r = i - r' by omega]; exact hc)
  have hall := not_not.mp fun hn => h0 (a2 hn)
  exact ⟨_, hv, (b1 fun w hw => hall w (window_shift hl hr hi hw)).trans (a1 hall).symm⟩

/-- **C137** for pivot lows. -/
theorem C137_pivot_low (o : OrdKey F L) {l l' r r' : Nat} (hl : l ≤ l') (hr : r ≤ r') {xs : List F} (hg : ∀ v ∈ xs, o.good v)
    {ps ps' : List F} (h : PivotLow xs l r = .ok ps) (h' : PivotLow xs l' r' = .ok ps') {i : Nat} {v' : F}
    (hv' : ps'[i]? = some v') (h0 : v' ≠ fl 0) :
    ∃ v, ps[i - (r' - r)]? = some v ∧ o.key v = o.key v' := by
  obtain ⟨_, e, hlen, -, hp⟩ := C32_pivot_low o l r xs hg
  obtain ⟨_, e', hlen', hz, hp'⟩ := C32_pivot_low o l' r' xs hg
  obtain rfl := Except.ok.inj (h.symm.trans e)
  obtain rfl := Except.ok.inj (h'.symm.trans e')
  have hi : l' + r' ≤ i := Nat.le_of_not_lt fun hlt => h0 (hz i v' hlt hv')
  have hin : i < xs.length := by rw [← hlen']; exact (List.getElem?_eq_some_iff.mp hv').1
  have hc : xs[i - r']? = some xs[i - r'] := List.getElem?_eq_getElem (by omega)
  have hv : ps[i - (r' - r)]? = some ps[i - (r' - r)] := List.getElem?_eq_getElem (by omega)
  obtain ⟨a1, a2⟩ := hp' i v' _ hi hv' hc
  obtain ⟨b1, -⟩ := hp (i - (r' - r)) _ xs[i - r'] (by omega) hv (by rw [show i - (r' - r) - r = i - r' by omega]; exact hc)
  have hall := not_not.mp fun hn => h0 (a2 hn)
  exact ⟨_, hv, (b1 fun w hw => hall w (window_shift hl hr hi hw)).trans (a1 hall).symm⟩

end

section
variable {K : Type} [Field K] [LinearOrder K] [IsStrictOrderedRing K]

theorem williams_end {b : Bar K} {r : XF K} {H L : K}
    (h1 : H ≠ L → ∃ v, r = .fin v ∧ v = -100 * (H - b.c) / (H - L) ∧ -100 ≤ v ∧ v ≤ 0) (h2 : H = L → r = .nan) :
    (r = .fin 0 ↔ H ≠ L ∧ H = b.c) ∧ (r = .fin (-100) ↔ H ≠ L ∧ L = b.c) := by
  by_cases hHL : H = L
  · rw [h2 hHL]; simp [hHL]
  · obtain ⟨v, rfl, rfl, -, -⟩ := h1 hHL
    have hne : H - L ≠ 0 := sub_ne_zero.mpr hHL
    constructor
    · simp only [XF.fin.injEq, ne_eq, hHL, not_false_eq_true, true_and]
      rw [div_eq_zero_iff]
      constructor
      · rintro (h | h)
        · linarith
        · exact absurd h hne
      · rintro rfl; left; ring
    · simp only [XF.fin.injEq, ne_eq, hHL, not_false_eq_true, true_and]
      rw [div_eq_iff hne]
      constructor
      · intro h; linarith
      · intro h; rw [h]

/-- **C137** (ends of the scale): a close at the very top (`0`) or bottom (`-100`) of `WilliamsR` for a long
period is there for every shorter period whose range is not empty. -/
theorem C137_williams {p q : Nat} (hp : 1 ≤ p) (hpq : p ≤ q) {it : Item (XF K)} {bs : List (Bar K)} (hb : Holds it bs)
    {d d' : List (Rec (XF K))} (hd : (Williams p).data it = .ok d) (hd' : (Williams q).data it = .ok d') {i : Nat}
    {r r' : Rec (XF K)} (hr : d[i]? = some r) (hr' : d'[i]? = some r') {b : Bar K} (hbi : bs[i]? = some b)
    (hw : b.l ≤ b.c ∧ b.c ≤ b.h) (hn : r.value ≠ .nan) :
    (r'.value = .fin 0 → r.value = .fin 0) ∧ (r'.value = .fin (-100) → r.value = .fin (-100)) := by
  obtain ⟨H, L, hH, hL, h1, h2⟩ := C44_williams_range hp hb hd hr hbi hw
  obtain ⟨H', L', hH', hL', h1', h2'⟩ := C44_williams_range (by omega) hb hd' hr' hbi hw
  obtain ⟨a1, a2⟩ := williams_end h1 h2
  obtain ⟨b1, b2⟩ := williams_end h1' h2'
  have hHL : H ≠ L := fun h => hn (h2 h)
  have hmem : b ∈ window p i bs := mem_window.mpr ⟨i, by omega, le_refl _, hbi⟩
  have c1 := hH.2 ⟨b, hmem, rfl⟩
  have c2 := hL.2 ⟨b, hmem, rfl⟩
  obtain ⟨⟨u, hu, hu'⟩, -⟩ := hH
  obtain ⟨⟨w, hw1, hw'⟩, -⟩ := hL
  have c3 := hH'.2 ⟨u, window_widen hpq hu, rfl⟩
  have c4 := hL'.2 ⟨w, window_widen hpq hw1, rfl⟩
  rw [a1, a2, b1, b2]
  exact ⟨fun ⟨_, h⟩ => ⟨hHL, le_antisymm (by linarith) (by linarith [hw.2])⟩,
    fun ⟨_, h⟩ => ⟨hHL, le_antisymm (by linarith [hw.1]) (by linarith)⟩⟩

end

/-! ### Where more is not wider -/

/-- A market with these highs, lows and closes. -/
def ranges (cs : List (ℚ × ℚ × ℚ)) : Item (XF ℚ) := barItem (cs.map fun c => ⟨c.2.2, c.1, c.2.1, c.2.2, 1⟩)

/-- **C137** refuted for the multipliers: with a larger multiplier `UTBot` buys and `SuperTrend` sells where, with
the smaller one, neither trades at all. -/
theorem C137_multiplier_refuted :
    ((UT (F := XF ℚ) 1 2).signals (ranges [(34, 31, 33), (32, 31, 32), (34, 29, 30), (37, 30, 33), (37, 34, 37), (33, 33, 33)]) =
        .ok [Buy, Hold, Hold, Hold, Hold, Hold] ∧
      (UT (F := XF ℚ) 2 2).signals (ranges [(34, 31, 33), (32, 31, 32), (34, 29, 30), (37, 30, 33), (37, 34, 37), (33, 33, 33)]) =
        .ok [Buy, Hold, Hold, Hold, Buy, Hold]) ∧
    ((ST (F := XF ℚ) 1 1 true).signals (ranges [(60, 56, 56), (58, 58, 58), (62, 57, 60), (62, 57, 58), (56, 52, 56), (60, 52, 56), (55, 53, 55), (52, 51, 52)]) =
        .ok [Buy, Hold, Hold, Hold, Hold, Hold, Hold, Hold] ∧
      (ST (F := XF ℚ) 1 2 true).signals (ranges [(60, 56, 56), (58, 58, 58), (62, 57, 60), (62, 57, 58), (56, 52, 56), (60, 52, 56), (55, 53, 55), (52, 51, 52)]) =
        .ok [Buy, Hold, Hold, Hold, Hold, Hold, Hold, Sell]) := by
  decide +kernel

/-- **C137** refuted for the stop of `SuperTrend`: with multiplier 2 it ends above the one with multiplier 1, nearer
to the price. -/
theorem C137_stop_refuted :
    ((ST (F := XF ℚ) 2 1 true).data (ranges [(2, 2, 2), (1, 1, 1), (4, 4, 4), (1, 1, 1), (1, 1, 1)])).toOption.bind (fun d => d[4]?.map (·.up)) =
      some (XF.fin (-3 / 16 : ℚ)) ∧
    ((ST (F := XF ℚ) 2 2 true).data (ranges [(2, 2, 2), (1, 1, 1), (4, 4, 4), (1, 1, 1), (1, 1, 1)])).toOption.bind (fun d => d[4]?.map (·.up)) =
      some (XF.fin (1 / 2 : ℚ)) := by
  decide +kernel

/-! ### Examples -/

example : ∃ d d' r r', (Donchian (F := XF ℚ) 2).data (ranges [(9, 1, 5), (9, 1, 3), (9, 1, 4)]) = .ok d ∧
    (Donchian (F := XF ℚ) 3).data (ranges [(9, 1, 5), (9, 1, 3), (9, 1, 4)]) = .ok d' ∧ d[2]? = some r ∧ d'[2]? = some r' ∧
    XF.ordKey.key r.upper ≤ XF.ordKey.key r'.upper ∧ r.upper ≠ r'.upper := by
  obtain ⟨d, hd, hd2⟩ : ∃ d, (Donchian (F := XF ℚ) 2).data (ranges [(9, 1, 5), (9, 1, 3), (9, 1, 4)]) = .ok d ∧ d.map (·.upper) = [.fin 5, .fin 5, .fin 4] := by
    have h := ((Donchian.appends (F := XF ℚ) 2).yields (ranges [(9, 1, 5), (9, 1, 3), (9, 1, 4)]) 3
      (fun i => ((ranges [(9, 1, 5), (9, 1, 3), (9, 1, 4)]).candles[i]?).getD (candleOf 0 0 0 0 0 0)) (by decide +kernel)).1 (.inl (by decide))
    exact ⟨_, h, by decide +kernel⟩
  obtain ⟨d', hd', hd2'⟩ : ∃ d, (Donchian (F := XF ℚ) 3).data (ranges [(9, 1, 5), (9, 1, 3), (9, 1, 4)]) = .ok d ∧ d.map (·.upper) = [.fin 5, .fin 5, .fin 5] := by
    have h := ((Donchian.appends (F := XF ℚ) 3).yields (ranges [(9, 1, 5), (9, 1, 3), (9, 1, 4)]) 3
      (fun i => ((ranges [(9, 1, 5), (9, 1, 3), (9, 1, 4)]).candles[i]?).getD (candleOf 0 0 0 0 0 0)) (by decide +kernel)).1 (.inl (by decide))
    exact ⟨_, h, by decide +kernel⟩
  match d, d', hd2, hd2', hd, hd' with
  | [a, b, c], [a', b', c'], h, h', hd, hd' =>
    simp only [List.map_cons, List.map_nil, List.cons.injEq, and_true] at h h'
    refine ⟨_, _, c, c', hd, hd', rfl, rfl, (C137_donchian XF.ordKey (p := 2) (q := 3) (by norm_num) (by norm_num)
      (fun c hc => by show c.close ≠ .nan; revert c hc; decide +kernel) hd hd' (i := 2) rfl rfl).1, ?_⟩
    rw [h.2.2, h'.2.2]; decide

/-- A pivot of two candles on each side, seen at candle 4, is one of one candle on each side, seen at candle 3. -/
example : PivotHigh [XF.fin (1 : ℚ), .fin 2, .fin 5, .fin 3, .fin 1] 2 2 = .ok [.fin 0, .fin 0, .fin 0, .fin 0, .fin 5] ∧
    ∃ ps v, PivotHigh [XF.fin (1 : ℚ), .fin 2, .fin 5, .fin 3, .fin 1] 1 1 = .ok ps ∧ ps[3]? = some v ∧
      XF.ordKey.key v = XF.ordKey.key (XF.fin (5 : ℚ)) := by
  have h1 : PivotHigh [XF.fin (1 : ℚ), .fin 2, .fin 5, .fin 3, .fin 1] 2 2 = .ok [.fin 0, .fin 0, .fin 0, .fin 0, .fin 5] := by decide +kernel
  have hg : ∀ v ∈ [XF.fin (1 : ℚ), .fin 2, .fin 5, .fin 3, .fin 1], (XF.ordKey (K := ℚ)).good v := by
    intro v hv; rintro rfl; simp at hv
  obtain ⟨ps, hps, -⟩ := C32_pivot_high (XF.ordKey (K := ℚ)) 1 1 [XF.fin (1 : ℚ), .fin 2, .fin 5, .fin 3, .fin 1] hg
  obtain ⟨v, hv, hk⟩ := C137_pivot_high (XF.ordKey (K := ℚ)) (l := 1) (l' := 2) (r := 1) (r' := 2) (by norm_num) (by norm_num) hg
    hps h1 (i := 4) rfl (by decide +kernel)
  exact ⟨h1, ps, v, hps, hv, hk⟩

/-- A close at the top of three candles is at the top of the last two. -/
example : ∃ d d' r r', (Williams (F := XF ℚ) 2).data (ranges [(2, 1, 2), (3, 1, 3), (4, 2, 4)]) = .ok d ∧
    (Williams (F := XF ℚ) 3).data (ranges [(2, 1, 2), (3, 1, 3), (4, 2, 4)]) = .ok d' ∧ d[2]? = some r ∧ d'[2]? = some r' ∧
    r'.value = .fin 0 ∧ r.value = .fin 0 := by
  obtain ⟨d, hd, hd2⟩ : ∃ d, (Williams (F := XF ℚ) 2).data (ranges [(2, 1, 2), (3, 1, 3), (4, 2, 4)]) = .ok d ∧
      d.map (·.value) = [.fin 0, .fin 0, .fin 0] := by
    have h := ((Williams.appends (F := XF ℚ) 2).yields (ranges [(2, 1, 2), (3, 1, 3), (4, 2, 4)]) 3
      (fun i => ((ranges [(2, 1, 2), (3, 1, 3), (4, 2, 4)]).candles[i]?).getD (candleOf 0 0 0 0 0 0)) (by decide +kernel)).1 (.inl (by decide))
    exact ⟨_, h, by decide +kernel⟩
  obtain ⟨d', hd', hd2'⟩ : ∃ d, (Williams (F := XF ℚ) 3).data (ranges [(2, 1, 2), (3, 1, 3), (4, 2, 4)]) = .ok d ∧
      d.map (·.value) = [.fin 0, .fin 0, .fin 0] := by
    have h := ((Williams.appends (F := XF ℚ) 3).yields (ranges [(2, 1, 2), (3, 1, 3), (4, 2, 4)]) 3
      (fun i => ((ranges [(2, 1, 2), (3, 1, 3), (4, 2, 4)]).candles[i]?).getD (candleOf 0 0 0 0 0 0)) (by decide +kernel)).1 (.inl (by decide))
    exact ⟨_, h, by decide +kernel⟩
  match d, d', hd2, hd2', hd, hd' with
  | [a, b, c], [a', b', c'], h, h', hd, hd' =>
    simp only [List.map_cons, List.map_nil, List.cons.injEq, and_true] at h h'
    exact ⟨_, _, c, c', hd, hd', rfl, rfl, h'.2.2, (C137_williams (p := 2) (q := 3) (by norm_num) (by norm_num) (holds_barItem _)
      hd hd' (i := 2) rfl rfl (b := ⟨4, 4, 2, 4, 1⟩) rfl (by norm_num) (by rw [h.2.2]; nofun)).1 h'.2.2⟩

end Verif.Props
