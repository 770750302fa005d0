import Verif.Klines.Tech
import Verif.Spec

/-!
# C17, C18: Heikin-Ashi candles and OHLC columns
-/

set_option linter.unusedSectionVars false

namespace Verif.Props
open Verif Verif.Klines GoFloat XF

variable {F : Type} [GoFloat F] {K : Type} [Field K] [LinearOrder K] [IsStrictOrderedRing K]

/-- A candle with finite prices, given as numbers. -/
def candleOf (t : Int) (o h l c v : K) : Candle (XF K) :=
  { Candle.zero t with open_ := .fin o, high := .fin h, low := .fin l, close := .fin c, volume := .fin v }

/-- Finite prices `o h l c` with `low <= open, close <= high`. -/
def HasPrices (b : Candle (XF K)) (o h l c : K) : Prop :=
  b.open_ = .fin o ∧ b.high = .fin h ∧ b.low = .fin l ∧ b.close = .fin c

/-- A well-formed candle. -/
def WellFormed (b : Candle (XF K)) : Prop :=
  ∃ o h l c, HasPrices b o h l c ∧ l ≤ o ∧ l ≤ c ∧ o ≤ h ∧ c ≤ h

/-- **C18 (columns).** For every candle list and every float type: `GetOHLC` succeeds with seven
columns as long as the candle list, and row `i` of the columns is candle `i`. -/
theorem C18_columns (e : Item F) :
    ∃ o, GetOHLC e = .ok o ∧
      o.open_.length = e.candles.length ∧ o.high.length = e.candles.length ∧
      o.low.length = e.candles.length ∧ o.close.length = e.candles.length ∧
      o.volume.length = e.candles.length ∧ o.bullMarket.length = e.candles.length ∧
      o.timeUnix.length = e.candles.length ∧
      ∀ (i : Nat) (c : Candle F), e.candles[i]? = some c →
        o.open_[i]? = some c.open_ ∧ o.high[i]? = some c.high ∧ o.low[i]? = some c.low ∧
        o.close[i]? = some c.close ∧ o.volume[i]? = some c.volume ∧
        o.bullMarket[i]? = some c.isBull ∧ o.timeUnix[i]? = some c.timeUnix := by
  refine ⟨_, GetOHLC_eq e, by simp, by simp, by simp, by simp, by simp, by simp, by simp, ?_⟩
  intro i c hc
  simp [hc]

/-- **C18 (averages).** `HL2`, `HLC3` and `OHLC4` have one entry per candle; for a well-formed
candle it is the average of the prices in the name and lies between low and high. -/
theorem C18_averages (e : Item (XF K)) :
    ∃ a b d : List (XF K), HL2 e = .ok a ∧ HLC3 e = .ok b ∧ OHLC4 e = .ok d ∧
      a.length = e.candles.length ∧ b.length = e.candles.length ∧ d.length = e.candles.length ∧
      ∀ (i : Nat) (cd : Candle (XF K)) (o h l c : K), e.candles[i]? = some cd → HasPrices cd o h l c →
        l ≤ o → l ≤ c → o ≤ h → c ≤ h →
        a[i]? = some (.fin (mean [h, l])) ∧ b[i]? = some (.fin (mean [h, l, c])) ∧
        d[i]? = some (.fin (mean [o, h, l, c])) ∧
        (l ≤ mean [h, l] ∧ mean [h, l] ≤ h) ∧ (l ≤ mean [h, l, c] ∧ mean [h, l, c] ≤ h) ∧
        (l ≤ mean [o, h, l, c] ∧ mean [o, h, l, c] ≤ h) := by
  refine ⟨_, _, _, HL2_eq e, HLC3_eq e, OHLC4_eq e, by simp, by simp, by simp, ?_⟩
  rintro i cd o h l c hcd ⟨h1, h2, h3, h4⟩ a1 a2 a3 a4
  have e2 : ((2 : Int) : K) ≠ 0 := by norm_num
  have e3 : ((3 : Int) : K) ≠ 0 := by norm_num
  have e4 : ((4 : Int) : K) ≠ 0 := by norm_num
  refine ⟨?_, ?_, ?_, ?_, ?_, ?_⟩
  · rw [List.getElem?_map, hcd, Option.map_some, h2, h3, fl_fin, add_fin, div_fin e2]
    simp [mean]
  · rw [List.getElem?_map, hcd, Option.map_some, h2, h3, h4, fl_fin, add_fin, add_fin, div_fin e3]
    simp [mean, add_assoc]
  · rw [List.getElem?_map, hcd, Option.map_some, h1, h2, h3, h4, fl_fin, add_fin, add_fin, add_fin,
      div_fin e4]
    simp [mean, add_assoc]
  · simp only [mean, List.sum_cons, List.sum_nil, List.length_cons, List.length_nil]
    norm_num
    constructor <;> linarith
  · simp only [mean, List.sum_cons, List.sum_nil, List.length_cons, List.length_nil]
    norm_num
    constructor
    · rw [le_div_iff₀ (by norm_num)]; linarith
    · rw [div_le_iff₀ (by norm_num)]; linarith
  · simp only [mean, List.sum_cons, List.sum_nil, List.length_cons, List.length_nil]
    norm_num
    constructor
    · rw [le_div_iff₀ (by norm_num)]; linarith
    · rw [div_le_iff₀ (by norm_num)]; linarith

/-- **C17 (partial).** `ToHeikinAshi` returns one candle per input candle with the same timestamp;
close is the mean of the four raw prices; open is the midpoint of the previous raw body from index 2
on (of the candle's own body at index 0 and 1); and for well-formed input `open, close, low <= high`.
Missing from C17: `low <= open` and `low <= close`, which are false, see `C17_low_refuted`. -/
theorem C17_heikin_ashi_partial (e : Item (XF K)) (hwf : ∀ b ∈ e.candles, WellFormed b) :
    ∃ r, ToHeikinAshi e = .ok r ∧ r.candles.length = e.candles.length ∧
      r.interval = e.interval ∧ r.exchange = e.exchange ∧
      ∀ i b, e.candles[i]? = some b → ∃ q o h l c, r.candles[i]? = some q ∧ HasPrices b o h l c ∧
        q.timeUnix = b.timeUnix ∧ ∃ qo qh ql qc, HasPrices q qo qh ql qc ∧
          qc = mean [o, h, l, c] ∧
          (i ≤ 1 → qo = mean [o, c]) ∧
          (∀ j b' o' h' l' c', i = j + 2 → e.candles[j + 1]? = some b' → HasPrices b' o' h' l' c' →
            qo = mean [o', c']) ∧
          qo ≤ qh ∧ qc ≤ qh ∧ ql ≤ qh ∧ h ≤ qh := by
  obtain ⟨x, hx⟩ := exists_tabC e.candles
  have hlen : e.candles.length = e.candles.length := rfl
  generalize hn : e.candles.length = n at hx
  refine ⟨_, ToHeikinAshi_tab e n x hx, by simp, rfl, rfl, ?_⟩
  intro i b hb
  have hin : i < n := by
    rw [hx, tab_getElem?] at hb
    by_contra hc; simp [hc] at hb
  obtain ⟨o, h, l, c, hp, a1, a2, a3, a4⟩ := hwf b (List.mem_of_getElem? hb)
  rw [hx, tab_getElem?_lt hin] at hb
  cases hb
  have e2 : ((2 : Int) : K) ≠ 0 := by norm_num
  have e4 : ((4 : Int) : K) ≠ 0 := by norm_num
  -- the open
  obtain ⟨qo, hqo, hq1, hq2⟩ : ∃ qo : K, haOpen x i = .fin qo ∧ (i ≤ 1 → qo = mean [o, c]) ∧
      (∀ j b' o' h' l' c', i = j + 2 → e.candles[j + 1]? = some b' → HasPrices b' o' h' l' c' →
            qo = mean [o', c']) := by
    unfold haOpen
    by_cases hi : 1 < i
    · have hb' : x (i - 1) ∈ e.candles := by
        rw [hx]; exact List.mem_of_getElem? (tab_getElem?_lt (by omega))
      obtain ⟨o', h', l', c', hp', _⟩ := hwf _ hb'
      refine ⟨(o' + c') / 2, ?_, fun h => absurd h (by omega), ?_⟩
      · rw [if_pos hi, hp'.1, hp'.2.2.2, add_fin, fl_fin, div_fin e2]; norm_num
      · intro j b'' o'' h'' l'' c'' hj hb'' hp''
        rw [hx, tab_getElem?_lt (by omega)] at hb''
        have : i - 1 = j + 1 := by omega
        rw [this] at hp'
        cases hb''
        have h1 := hp'.1.symm.trans hp''.1
        have h2 := hp'.2.2.2.symm.trans hp''.2.2.2
        rw [fin_inj] at h1 h2
        rw [h1, h2]; simp [mean]
    · refine ⟨(o + c) / 2, ?_, fun _ => by simp [mean], fun j _ _ _ _ _ hj => absurd hj (by omega)⟩
      rw [if_neg hi, hp.1, hp.2.2.2, add_fin, fl_fin, div_fin e2]; norm_num
  refine ⟨haCandle x i, o, h, l, c, tab_getElem?_lt hin, hp, rfl, qo, max h (max qo c),
    max l (min qo c), (o + h + l + c) / 4, ⟨hqo, ?_, ?_, ?_⟩, ?_, hq1, hq2, ?_, ?_, ?_, ?_⟩
  · simp only [haCandle, hqo, hp.2.1, hp.2.2.2, max_fin]
  · simp only [haCandle, hqo, hp.2.2.1, hp.2.2.2, max_fin, min_fin]
  · show (_ /. _ : XF K) = _
    rw [hp.1, hp.2.1, hp.2.2.1, hp.2.2.2, add_fin, add_fin, add_fin, fl_fin, div_fin e4]
    norm_num
  · simp [mean, add_assoc]
  · exact le_trans (le_max_left _ _) (le_max_right _ _)
  · refine le_trans ?_ (le_max_left _ _)
    rw [div_le_iff₀ (by norm_num)]; linarith
  · refine max_le (le_trans (le_trans a1 a3) (le_max_left _ _)) ?_
    exact le_trans (min_le_left _ _) (le_trans (le_max_left _ _) (le_max_right _ _))
  · exact le_max_left _ _

/-- The candle list used as a concrete case: three well-formed candles. -/
def haSample : List (Candle (XF ℚ)) :=
  [candleOf 1 1 2 1 2 0, candleOf 2 1 2 1 2 0, candleOf 3 9 11 8 10 0]

/-- **C17 is false for the low**: three well-formed candles whose third Heikin-Ashi candle has
`open = 3/2` but `low = 8`. -/
theorem C17_low_refuted :
    ∃ r q, ToHeikinAshi { exchange := "x", interval := 1, symbol := "", code := "", candles := haSample }
        = .ok r ∧ r.candles[2]? = some q ∧ (q.open_ <. q.low) = true := by
  refine ⟨_, _, rfl, rfl, ?_⟩
  decide +kernel

example : ∀ b ∈ haSample, WellFormed b := by
  intro b hb
  simp only [haSample, List.mem_cons, List.not_mem_nil, or_false] at hb
  rcases hb with rfl | rfl | rfl
  · exact ⟨1, 2, 1, 2, ⟨rfl, rfl, rfl, rfl⟩, by norm_num, by norm_num, by norm_num, by norm_num⟩
  · exact ⟨1, 2, 1, 2, ⟨rfl, rfl, rfl, rfl⟩, by norm_num, by norm_num, by norm_num, by norm_num⟩
  · exact ⟨9, 11, 8, 10, ⟨rfl, rfl, rfl, rfl⟩, by norm_num, by norm_num, by norm_num, by norm_num⟩

end Verif.Props
