import Verif.Props.KlinePad
import Verif.Props.VolumeLines
import Verif.Props.EmaLines
import Verif.Props.Percent
import Verif.Props.Lines
import Verif.Ind.Signals

/-!
# What a padded gap does to the indicators (C129)

`addPadding` puts a candle whose prices and volume are 0 where the exchange sent none. What the indicators make of it.
-/

set_option linter.unusedSectionVars false

namespace Verif.Props
open Verif Verif.Klines Verif.Ta Verif.Ind GoFloat XF

/-- **C129** Where the exchange sent no candle the padded series has one whose five numbers are 0. -/
theorem C129_padding {F : Type} [GoFloat F] (e : Item F) {sec : Int} (hsec : 0 < sec) (hi : e.interval = sec * nsec)
    (hcs : e.candles.Pairwise fun a b => a.timeUnix < b.timeUnix) (start stop : Int) (k : Nat)
    (hk : (stop - start).tdiv e.interval = k) (hk1 : 1 ≤ k) {e' : Item F}
    (h : addPadding (some e) start stop false = .ok (.ok e')) (x : Nat) (hx : x < k)
    (hmiss : ∀ d ∈ e.candles, d.timeUnix ≠ unix start + x * sec) :
    ∃ c, e'.candles[x]? = some c ∧ c.timeUnix = unix start + x * sec ∧
      c.open_ = fl 0 ∧ c.high = fl 0 ∧ c.low = fl 0 ∧ c.close = fl 0 ∧ c.volume = fl 0 := by
  obtain ⟨h1, h2⟩ := C75_padding e hsec hi hcs start stop k hk hk1
  have hoff : ¬ OffGrid e.candles start sec k := fun hoff => by rw [h1 hoff] at h; cases h
  obtain ⟨cs, h3, hlen, hsl⟩ := h2 hoff
  rw [h3] at h
  cases h
  have hl : x < cs.length := by omega
  refine ⟨cs[x], List.getElem?_eq_getElem hl, ?_⟩
  obtain ⟨ht, hm⟩ := hsl x _ (List.getElem?_eq_getElem hl)
  refine ⟨ht, ?_⟩
  rcases hm with hm | ⟨-, hm⟩
  · exact absurd ht (hmiss _ hm)
  · rw [hm]; exact ⟨rfl, rfl, rfl, rfl, rfl⟩

section Exact
variable {K : Type} [Field K] [LinearOrder K] [IsStrictOrderedRing K]

/-- The numbers of a padded candle. -/
def zeroBar : Bar K := ⟨0, 0, 0, 0, 0⟩

variable {it : Item (XF K)} {bs : List (Bar K)}

theorem col_of {f : Bar K → K} {j : Nat} {b : Bar K} (h : bs[j]? = some b) : col f bs j = f b := by rw [col, h]; rfl

/-- **C129** One padded candle makes the negative volume index 0 from that candle to the end of the series. -/
theorem C129_nvi (hb : Holds it bs) {j : Nat} (hj : bs[j + 1]? = some zeroBar)
    (hp : ∀ k b, k ≠ j + 1 → bs[k]? = some b → 0 < b.c ∧ 0 < b.v) {d : List (Rec (XF K))} (hd : NVI.data it = .ok d)
    {i : Nat} (hi : j < i) {r : Rec (XF K)} (hr : d[i]? = some r) : r.value = .fin 0 := by
  obtain ⟨x, hx, hc⟩ := hb.full
  obtain ⟨hin, -, rfl⟩ := at_full NVI.appends.yields hx hd hr
  show nviF x i = _
  have hp' : ∀ k, k ≠ j + 1 → k < bs.length → 0 < col Bar.c bs k ∧ 0 < col Bar.v bs k := fun k hk hl => by
    have := hp k _ hk (List.getElem?_eq_getElem hl)
    rwa [col_of (List.getElem?_eq_getElem hl), col_of (List.getElem?_eq_getElem hl)]
  have z1 : col Bar.c bs (j + 1) = 0 := col_of hj
  have z2 : col Bar.v bs (j + 1) = 0 := col_of hj
  have hfin : ∀ k, k ≤ j → ∃ v, nviF x k = .fin v := by
    intro k
    induction k with
    | zero => exact fun _ => ⟨_, by rw [nviF, fl_fin]⟩
    | succ k ih =>
      intro hk
      obtain ⟨v, hv⟩ := ih (by omega)
      rw [nviF, hv, hc.vo, hc.cl]
      simp only [finF, sub_fin, div_fin (hp' k (by omega) (by omega)).1.ne', mul_fin, add_fin]
      split
      · exact ⟨_, rfl⟩
      · exact ⟨_, rfl⟩
  clear hr hd
  induction i with
  | zero => omega
  | succ k ih =>
    rw [nviF]
    rcases Nat.lt_or_ge j k with h | h
    · rw [ih h (by omega), hc.vo, hc.cl]
      simp only [finF, sub_fin, lt_fin]
      obtain ⟨h1, h2⟩ := hp' (k + 1) (by omega) (by omega)
      by_cases hk : k = j + 1
      · subst hk
        rw [z2, if_pos (by simpa using h2)]
      · simp only [div_fin (hp' k hk (by omega)).1.ne', mul_fin, add_fin, mul_zero, add_zero, ite_self]
    · obtain rfl : k = j := by omega
      obtain ⟨v, hv⟩ := hfin k le_rfl
      obtain ⟨h1, h2⟩ := hp' k (by omega) (by omega)
      rw [hv, hc.vo, hc.cl]
      simp only [finF, z1, z2, lt_fin, decide_eq_false (not_lt.mpr h2.le), Bool.false_eq_true, if_false, sub_fin, div_fin h1.ne',
        mul_fin, add_fin, XF.fin.injEq]
      field_simp
      ring

/-- **C129** Two padded candles in a row make it NaN to the end of the series, whatever comes later. -/
theorem C129_nvi_nan (hb : Holds it bs) {j : Nat} (hj : bs[j]? = some zeroBar) (hj' : bs[j + 1]? = some zeroBar)
    {d : List (Rec (XF K))} (hd : NVI.data it = .ok d) {i : Nat} (hi : j < i) {r : Rec (XF K)} (hr : d[i]? = some r) :
    r.value = .nan := by
  obtain ⟨x, hx, hc⟩ := hb.full
  obtain ⟨hin, -, rfl⟩ := at_full NVI.appends.yields hx hd hr
  show nviF x i = _
  clear hr hd hin
  induction i with
  | zero => omega
  | succ k ih =>
    rw [nviF]
    rcases Nat.lt_or_ge j k with h | h
    · rw [ih h]
      split <;> rfl
    · obtain rfl : k = j := by omega
      rw [hc.vo, hc.cl]
      simp only [finF, col_of hj, col_of hj', zeroBar, lt_fin, lt_irrefl, decide_false, Bool.false_eq_true, if_false, sub_fin,
        sub_self]
      have : (XF.fin (0 : K) /. XF.fin 0) = XF.nan := by
        show XF.div _ _ = _
        simp [XF.div, XF.infSign]
      rw [this]
      show XF.add _ (XF.mul XF.nan _) = _
      rw [XF.mul]
      cases nviF x k <;> rfl

/-- **C129** A padded candle is the floor of the Donchian channel as long as it is in the window. -/
theorem C129_donchian (hb : Holds it bs) (hp : ∀ b ∈ bs, 0 ≤ b.c) {p j : Nat} (hj : bs[j]? = some zeroBar)
    {d : List (Band (XF K))} (hd : (Donchian p).data it = .ok d) {i : Nat} (h1 : j ≤ i) (h2 : i < j + p) {r : Band (XF K)}
    (hr : d[i]? = some r) : r.lower = .fin 0 ∧ ∃ u, r.upper = .fin u ∧ r.middle = .fin (u / 2) := by
  obtain ⟨u, l, e1, e2, e3, -, hl, -⟩ := C48_donchian hb hd hr
  have hw : zeroBar ∈ window p i bs := mem_window.mpr ⟨j, by omega, h1, hj⟩
  have hl0 : l = 0 := by
    apply le_antisymm (hl.2 ⟨zeroBar, hw, rfl⟩)
    obtain ⟨q, hq, rfl⟩ := hl.1
    exact hp q ((List.mem_of_getElem? (mem_window.mp hq).choose_spec.2.2))
  subst hl0
  exact ⟨e2, u, e1, by rw [e3, add_zero]⟩

/-- **C129** While a padded candle is in the window the stochastic and Williams measure the close against 0: K is the close as a
percentage of the highest high. -/
theorem C129_stochastic (hb : Holds it bs) (hp : ∀ b ∈ bs, 0 ≤ b.l) {p j : Nat} (hp1 : 1 ≤ p) (hj : bs[j]? = some zeroBar)
    {d : List (KD (XF K))} (hd : (Stoch p).data it = .ok d) {i : Nat} (h1 : j ≤ i) (h2 : i < j + p) {r : KD (XF K)}
    (hr : d[i]? = some r) {b : Bar K} (hbi : bs[i]? = some b) :
    ∃ H, IsGreatest {v | ∃ q ∈ window p i bs, q.h = v} H ∧ r.k = .fin (if H = 0 then 0 else 100 * b.c / H) := by
  obtain ⟨H, L, hH, hl, e⟩ := C44_stochastic_exact hp1 hb hd hr hbi
  have hw : zeroBar ∈ window p i bs := mem_window.mpr ⟨j, by omega, h1, hj⟩
  have hl0 : L = 0 := by
    apply le_antisymm (hl.2 ⟨zeroBar, hw, rfl⟩)
    obtain ⟨q, hq, rfl⟩ := hl.1
    exact hp q ((List.mem_of_getElem? (mem_window.mp hq).choose_spec.2.2))
  subst hl0
  exact ⟨H, hH, by rw [e, sub_zero, sub_zero]⟩

/-- **C129** On-balance volume leaves the padded candle out and counts the candle after it as a rise, whichever way the price went over
the gap. -/
theorem C129_obv (hb : Holds it bs) {j : Nat} {a c : Bar K} (h0 : bs[j]? = some a) (h1 : bs[j + 1]? = some zeroBar)
    (h2 : bs[j + 2]? = some c) (hc : 0 < c.c) {d : List (Rec (XF K))} (hd : OBV.data it = .ok d)
    {r s t : Rec (XF K)} (hr : d[j]? = some r) (hs : d[j + 1]? = some s) (ht : d[j + 2]? = some t) :
    ∃ v, r.value = .fin v ∧ s.value = .fin v ∧ t.value = .fin (v + c.v) := by
  have e0 := C50_obv_sum hb hd hr
  have e1 := C50_obv_sum hb hd hs
  have e2 := C50_obv_sum hb hd ht
  have z1 : signedVolume bs (j + 1) = 0 := by
    simp [signedVolume, col_of h0, col_of h1, zeroBar]
  have z2 : signedVolume bs (j + 2) = c.v := by
    simp [signedVolume, col_of h1, col_of h2, zeroBar, hc]
  rw [Finset.sum_Ico_succ_top (by omega), z1, add_zero] at e1
  rw [Finset.sum_Ico_succ_top (by omega), Finset.sum_Ico_succ_top (by omega), z1, z2, add_zero] at e2
  exact ⟨_, e0, e1, e2⟩

/-- **C129** The exponential average falls at the padded candle by the factor `(p - 1)/(p + 1)`. -/
theorem C129_ema (hb : Holds it bs) {p j : Nat} (hj : bs[j + 1]? = some zeroBar) {d : List (Rec (XF K))}
    (hd : (EMA p).data it = .ok d) {r s : Rec (XF K)} (hr : d[j]? = some r) (hs : d[j + 1]? = some s) :
    ∃ v, r.value = .fin v ∧ s.value = .fin (((p : K) - 1) / (p + 1) * v) := by
  have e0 := C82_ema hb hd hr
  have e1 := C82_ema hb hd hs
  refine ⟨_, e0, ?_⟩
  rw [e1, expMean_succ, col_of hj]
  have : (p : K) + 1 ≠ 0 := by positivity
  congr 1
  simp only [zeroBar, mul_zero, zero_add]
  rw [one_sub_div this]
  congr 2
  ring

/-- **C129** `Atr` sees no movement at the padded candle and a true range of the whole price at the next one. -/
theorem C129_atr (hb : Holds it bs) {p : Int} {j : Nat} {a c : Bar K} (h0 : bs[j]? = some a) (h1 : bs[j + 1]? = some zeroBar)
    (h2 : bs[j + 2]? = some c) (ha : 0 ≤ a.c) (hc : 0 ≤ c.l) (hc' : c.l ≤ c.h) {d : List (ATR.Data (XF K))}
    (hd : (ATR p).data it = .ok d) {s t : ATR.Data (XF K)} (hs : d[j + 1]? = some s) (ht : d[j + 2]? = some t) :
    s.tr = .fin 0 ∧ t.tr = .fin c.h := by
  have e1 := ((C62_true_range_partial hb hd hs h1).2 j a rfl h0).1
  have e2 := ((C62_true_range_partial hb hd ht h2).2 (j + 1) zeroBar rfl h1).1
  rw [e1, e2]
  simp only [zeroBar, sub_zero, zero_sub, max_self, max_eq_left hc', XF.fin.injEq]
  exact ⟨max_eq_left (by linarith), max_eq_right (by linarith)⟩

/-- **C129** The accumulation/distribution line does not move at a padded candle. -/
theorem C129_ad (hb : Holds it bs) (hw : ∀ b ∈ bs, b.l ≤ b.c ∧ b.c ≤ b.h) {j : Nat} (hj : bs[j + 1]? = some zeroBar)
    {d : List (Rec (XF K))} (hd : AD.data it = .ok d) {r s : Rec (XF K)} (hr : d[j]? = some r) (hs : d[j + 1]? = some s) :
    s.value = r.value := by
  rw [C80_accumulation_distribution hb hw hd hr, C80_accumulation_distribution hb hw hd hs, Finset.sum_range_succ _ (j + 1),
    col_of hj]
  simp [zeroBar]

/-- **C129** The volume weighted average is that of the other candles: it does not read the price of a candle without volume. -/
theorem C129_vwma {it' : Item (XF K)} {bs' : List (Bar K)} (hb : Holds it bs) (hb' : Holds it' bs') {p j : Nat} {z : Bar K}
    (hj : bs[j]? = some zeroBar) (hz : z.v = 0) (he : bs' = bs.set j z) {d d' : List (Rec (XF K))}
    (hd : (VWMA p).data it = .ok d) (hd' : (VWMA p).data it' = .ok d') {i : Nat} {r s : Rec (XF K)} (hr : d[i]? = some r)
    (hs : d'[i]? = some s) : s.value = r.value := by
  rw [(C47_vwma hb hd hr).1, (C47_vwma hb' hd' hs).1]
  have e : ∀ f : Bar K → K, f z = f zeroBar → col f bs' = col f bs := by
    intro f hf
    funext k
    rw [he, col, col, List.getElem?_set]
    split
    · rename_i h
      subst h
      split
      · rw [hj]; simp [hf]
      · rw [List.getElem?_eq_none (by omega)]
    · rfl
  rw [e Bar.v (by rw [hz]; rfl), e (fun b => b.c * b.v) (by simp [hz, zeroBar])]

/-- **C129** The Donchian strategy buys at the candle after a padded one, unless that candle closes at half the highest close of its
window or lower. -/
theorem C129_donchian_buys (hb : Holds it bs) {p j : Nat} (hp2 : 2 ≤ p) (hj : bs[j]? = some zeroBar)
    (hp : ∀ k b, k ≠ j → bs[k]? = some b → 0 < b.c) (hj0 : 0 < j) {s : List Side} (hs : (Donchian p).signals it = .ok s)
    {c : Bar K} (hc : bs[j + 1]? = some c) (hh : ∀ q ∈ window p (j + 1) bs, q.c < 2 * c.c) : s[j + 1]? = some Buy := by
  obtain ⟨x, hx, hcol⟩ := hb.full
  obtain ⟨hok, rfl⟩ := signals_inv (Donchian.signals p) hx hs
  have hl : j + 1 < bs.length := (List.getElem?_eq_some_iff.mp hc).1
  rw [tab_getElem?_lt hl]
  have hd : (Donchian (F := XF K) p).data it = .ok (tab bs.length (Donchian.out p x)) :=
    ((Donchian.appends p).yields it _ x hx).1 hok
  have h0 : ∀ b ∈ bs, 0 ≤ b.c := by
    intro b hbm
    obtain ⟨k, hk⟩ := List.mem_iff_getElem?.mp hbm
    by_cases h : k = j
    · subst h
      rw [hj] at hk
      rw [← Option.some.inj hk]
      exact le_rfl
    · exact (hp k b h hk).le
  obtain ⟨-, u, eu, em⟩ := C129_donchian hb h0 hj hd le_rfl (by omega) (tab_getElem?_lt (show j < bs.length by omega))
  obtain ⟨-, u', eu', em'⟩ := C129_donchian hb h0 hj hd (show j ≤ j + 1 by omega) (by omega) (tab_getElem?_lt hl)
  obtain ⟨u1, l1, e1, -, -, hg, -⟩ := C48_donchian hb hd (tab_getElem?_lt (show j < bs.length by omega))
  obtain ⟨u2, l2, e2, -, -, hg', -⟩ := C48_donchian hb hd (tab_getElem?_lt hl)
  obtain rfl : u1 = u := XF.fin.inj (e1.symm.trans eu)
  obtain rfl : u2 = u' := XF.fin.inj (e2.symm.trans eu')
  have hu : 0 < u1 := by
    obtain ⟨k, hk⟩ : ∃ k, j = k + 1 := ⟨j - 1, by omega⟩
    have hkl : k < bs.length := by omega
    have hk' : bs[k]? = some bs[k] := List.getElem?_eq_getElem hkl
    exact lt_of_lt_of_le (hp k _ (by omega) hk') (hg.2 ⟨bs[k], mem_window.mpr ⟨k, by omega, by omega, hk'⟩, rfl⟩)
  have hu' : u2 < 2 * c.c := by
    obtain ⟨q, hq, rfl⟩ := hg'.1
    exact hh q hq
  show some (Band.rule (Donchian.out p x j) (Donchian.out p x (j + 1)) (Ind.cl x j) (Ind.cl x (j + 1))) = _
  rw [Band.rule, em, em', hcol.cl]
  simp only [finF, col_of hj, col_of hc, zeroBar, lt_fin]
  rw [if_pos]
  rw [Bool.and_eq_true, decide_eq_true_iff, decide_eq_true_iff]
  constructor <;> linarith

theorem expMean_pos {p : Nat} (hp : 1 ≤ p) {a : Nat → K} {i : Nat} (h : ∀ j ≤ i, 0 < a j) : 0 < expMean p a i := by
  have hp' : (1 : K) ≤ p := by exact_mod_cast hp
  have h1 : 0 < 2 / ((p : K) + 1) := by positivity
  have h2 : 2 / ((p : K) + 1) ≤ 1 := by rw [div_le_one (by positivity)]; linarith
  induction i with
  | zero => rw [expMean]; simpa using h 0 le_rfl
  | succ i ih =>
    rw [expMean_succ]
    have := mul_pos h1 (h (i + 1) le_rfl)
    have := mul_nonneg (show 0 ≤ 1 - 2 / ((p : K) + 1) by linarith) (ih fun j hj => h j (by omega)).le
    linarith

/-- **C129** The Keltner strategy buys at the candle after a padded one exactly if that candle closes above `(p-1)/(p+1)` of the
average before the gap; for the default period 20 that is any price that has lost less than 2/21, nine per cent. -/
theorem C129_keltner_buys (hb : Holds it bs) {p j : Nat} (hp2 : 2 ≤ p) (hj : bs[j + 1]? = some zeroBar)
    (hp : ∀ k b, k ≤ j → bs[k]? = some b → 0 < b.c) {s : List Side} (hs : (Keltner p).signals it = .ok s)
    {d : List (Rec (XF K))} (hd : (EMA p).data it = .ok d) {r : Rec (XF K)} (hr : d[j]? = some r)
    {c : Bar K} (hc : bs[j + 2]? = some c) :
    ∃ v, r.value = .fin v ∧ (s[j + 2]? = some Buy ↔ ((p : K) - 1) / (p + 1) * v < c.c) := by
  obtain ⟨x, hx, hcol⟩ := hb.full
  obtain ⟨-, rfl⟩ := signals_inv (Keltner.signals p) hx hs
  have hl : j + 2 < bs.length := (List.getElem?_eq_some_iff.mp hc).1
  refine ⟨_, C82_ema hb hd hr, ?_⟩
  rw [tab_getElem?_lt hl]
  have hv : 0 < expMean p (col Bar.c bs) j := expMean_pos (by omega) fun k hk => by
    have := List.getElem?_eq_getElem (show k < bs.length by omega)
    rw [col_of this]
    exact hp k _ hk this
  have m1 : (Keltner.out (p : Int) x (j + 1)).middle = .fin (expMean p (col Bar.c bs) (j + 1)) := by
    show emaF p (Ind.cl x) (j + 1) = _
    rw [hcol.cl, emaF_expMean]
  have m2 : (Keltner.out (p : Int) x (j + 2)).middle = .fin (expMean p (col Bar.c bs) (j + 2)) := by
    show emaF p (Ind.cl x) (j + 2) = _
    rw [hcol.cl, emaF_expMean]
  show some (Band.rule (Keltner.out p x (j + 1)) (Keltner.out p x (j + 2)) (Ind.cl x (j + 1)) (Ind.cl x (j + 2))) = _ ↔ _
  rw [Band.rule, m1, m2, hcol.cl, expMean_succ, expMean_succ]
  simp only [finF, col_of hj, col_of hc, zeroBar, lt_fin, mul_zero, zero_add]
  have hp' : (2 : K) ≤ p := by exact_mod_cast hp2
  have ea : 1 - 2 / ((p : K) + 1) = ((p : K) - 1) / (p + 1) := by
    rw [one_sub_div (by positivity)]
    congr 1
    ring
  have hpos : 0 < ((p : K) - 1) / (p + 1) := div_pos (by linarith) (by linarith)
  have e2 : 2 / ((p : K) + 1) = 1 - ((p : K) - 1) / (p + 1) := by rw [← ea]; ring
  rw [ea, e2]
  generalize ((p : K) - 1) / (p + 1) = t at hpos
  generalize expMean p (col Bar.c bs) j = v at hv
  have hE : 0 < t * v := mul_pos hpos hv
  have key : (1 - t) * c.c + t * (t * v) < c.c ↔ t * v < c.c := by
    rw [← sub_pos, show c.c - ((1 - t) * c.c + t * (t * v)) = t * (c.c - t * v) by ring, mul_pos_iff_of_pos_left hpos, sub_pos]
  simp only [decide_eq_true hE, Bool.and_true, decide_eq_true_eq, key]
  split
  · rename_i h
    exact ⟨fun _ => h, fun _ => rfl⟩
  · rename_i h
    refine ⟨fun h' => ?_, fun h' => absurd h' h⟩
    split at h'
    · exact absurd h' (by decide)
    · exact absurd h' (by decide)

end Exact

/-! ## The premises are met -/

/-- Three equal candles, a padded one, and three more. -/
def gapBars : List (Bar ℚ) := List.replicate 3 ⟨10, 11, 9, 10, 5⟩ ++ [zeroBar] ++ List.replicate 3 ⟨10, 11, 9, 10, 5⟩

example : Holds (barItem gapBars) gapBars ∧ gapBars[3]? = some zeroBar ∧
    (∀ k b, k ≠ 3 → gapBars[k]? = some b → 0 < b.c ∧ 0 < b.v) := by
  refine ⟨holds_barItem _, rfl, fun k b hk hb => ?_⟩
  match k, hk with
  | 0, _ | 1, _ | 2, _ | 4, _ | 5, _ | 6, _ =>
    obtain rfl := Option.some.inj hb
    exact ⟨by norm_num, by norm_num⟩
  | k + 7, _ => exact absurd hb (by simp [gapBars])

example : (NVI.data (barItem gapBars)).map (List.map Rec.value) =
    .ok [.fin 1000, .fin 1000, .fin 1000, .fin 0, .fin 0, .fin 0, .fin 0] := by decide +kernel

example : ((OBV (F := XF ℚ)).data (barItem gapBars)).map (List.map Rec.value) =
    .ok [.fin 0, .fin 0, .fin 0, .fin 0, .fin 5, .fin 5, .fin 5] := by decide +kernel

/-- **C129** One padded candle in a market that otherwise does not move makes eight strategies trade which hold without it (C126). -/
theorem C129_signals :
    (Donchian 2).signals (barItem gapBars) = .ok [Buy, Hold, Hold, Hold, Buy, Hold, Hold] ∧
    (Keltner 2).signals (barItem gapBars) = .ok [Buy, Hold, Hold, Hold, Buy, Hold, Hold] ∧
    (APO 2 4).signals (barItem gapBars) = .ok [Buy, Hold, Hold, Hold, Buy, Hold, Hold] ∧
    (PPO 2 4 3).signals (barItem gapBars) = .ok [Buy, Hold, Hold, Hold, Buy, Hold, Hold] ∧
    (Williams 3).signals (barItem gapBars) = .ok [Buy, Hold, Hold, Buy, Sell, Hold, Hold] ∧
    (Stoch 3).signals (barItem gapBars) = .ok [Buy, Hold, Hold, Hold, Buy, Hold, Sell] ∧
    (KDJ 3).signals (barItem gapBars) = .ok [Buy, Hold, Hold, Hold, Buy, Hold, Hold] ∧
    (XO 2 4).signals (barItem gapBars) = .ok [Hold, Hold, Hold, Sell, Buy, Hold, Hold] := by
  refine ⟨?_, ?_, ?_, ?_, ?_, ?_, ?_, ?_⟩ <;> decide +kernel

end Verif.Props
