import Verif.Props.TickMore
import Verif.Props.Inputs

/-!
# Lines and signals that an uptick moves the other way (C127), and series to which the theorems apply
-/

set_option linter.unusedSectionVars false
set_option linter.unusedVariables false

namespace Verif.Props
open Verif Verif.Klines Verif.Ta Verif.Ind GoFloat XF

/-- An ordinary candle: positive prices, the open and the close within the range, some volume. -/
abbrev Ordinary (b : Bar ℚ) : Prop := 0 < b.l ∧ (b.l ≤ b.o ∧ b.o ≤ b.h) ∧ CloseInside b ∧ 0 < b.v

/-- The bar after the price has moved to `q`. -/
def tickBar (q : ℚ) (b : Bar ℚ) : Bar ℚ := ⟨b.o, max b.h q, b.l, q, b.v⟩

/-- The last bar of a series ticks up. -/
theorem uptick_bar {Q : Bar ℚ → Prop} {bs : List (Bar ℚ)} {b : Bar ℚ} {q : ℚ} (hq : b.c ≤ q) (hQ : ∀ a ∈ bs ++ [b], Q a) :
    Uptick Q (barItem (bs ++ [b])) (barItem (bs ++ [tickBar q b])) := by
  refine ⟨bs.map fun b => candleOf 0 b.o b.h b.l b.c b.v, candleOf 0 b.o b.h b.l b.c b.v, q, b.c, false, ?_, ?_, rfl, hq,
    fun h => h, _, holds_barItem _, hQ⟩
  · simp [barItem]
  · simp only [barItem, List.map_append, List.map_cons, List.map_nil, tickBar, tickC, candleOf, lt_fin]
    by_cases h : b.h < q
    · simp [h, max_eq_right h.le, Candle.zero]
    · simp [h, max_eq_left (not_lt.mp h), Candle.zero]

theorem not_rises {Q : Bar ℚ → Prop} {I : Indicator (XF ℚ)} {u : I.D → XF ℚ} (bs : List (Bar ℚ)) (b : Bar ℚ) (q a c : ℚ) (hq : b.c ≤ q)
    (hQ : ∀ a ∈ bs ++ [b], Q a) (h1 : ((I.data (barItem (bs ++ [b]))).toOption.bind fun d => d.getLast?.map u) = some (.fin a))
    (h2 : ((I.data (barItem (bs ++ [tickBar q b]))).toOption.bind fun d => d.getLast?.map u) = some (.fin c)) (hac : c < a) :
    ¬ Rises Q I u := by
  intro h
  obtain ⟨-, h⟩ := h _ _ (uptick_bar hq hQ)
  cases hd : I.data (barItem (bs ++ [b])) with
  | error p => rw [hd] at h1; cases h1
  | ok d =>
    cases he : I.data (barItem (bs ++ [tickBar q b])) with
    | error p => rw [he] at h2; cases h2
    | ok e =>
      obtain ⟨r, s, a', c', k1, k2, k3, k4, k5⟩ := h d e hd he
      rw [hd] at h1
      rw [he] at h2
      simp only [Except.toOption, Option.bind_some, k1, k2, Option.map_some, k3, k4, Option.some.injEq, XF.fin.injEq] at h1 h2
      exact absurd hac (by rw [← h1, ← h2]; exact not_lt.mpr k5)

theorem last_of {I : Strat (XF ℚ)} {it : Item (XF ℚ)} {a : Side}
    (h : ((I.signals it).toOption.bind List.getLast?) = some a) : ∃ s, I.signals it = .ok s ∧ s.getLast? = some a := by
  cases hs : I.signals it with
  | error p => rw [hs] at h; cases h
  | ok s => rw [hs] at h; exact ⟨s, rfl, h⟩

theorem not_sidesRise {Q : Bar ℚ → Prop} {I : Strat (XF ℚ)} (bs : List (Bar ℚ)) (b : Bar ℚ) (q : ℚ) (a c : Side) (hq : b.c ≤ q)
    (hQ : ∀ a ∈ bs ++ [b], Q a) (hl : 1 ≤ bs.length) (h1 : ((I.signals (barItem (bs ++ [b]))).toOption.bind List.getLast?) = some a)
    (h2 : ((I.signals (barItem (bs ++ [tickBar q b]))).toOption.bind List.getLast?) = some c) (hac : bull c < bull a) :
    ¬ SidesRise Q I := by
  intro h
  obtain ⟨s, hs, ls⟩ := last_of h1
  obtain ⟨t, ht, lt⟩ := last_of h2
  obtain ⟨a', c', k1, k2, k3⟩ := h _ _ (uptick_bar hq hQ) (by simp [barItem]; omega) s t hs ht
  rw [ls] at k1
  rw [lt] at k2
  cases k1; cases k2
  omega

theorem not_sidesFall {Q : Bar ℚ → Prop} {I : Strat (XF ℚ)} (bs : List (Bar ℚ)) (b : Bar ℚ) (q : ℚ) (a c : Side) (hq : b.c ≤ q)
    (hQ : ∀ a ∈ bs ++ [b], Q a) (hl : 1 ≤ bs.length) (h1 : ((I.signals (barItem (bs ++ [b]))).toOption.bind List.getLast?) = some a)
    (h2 : ((I.signals (barItem (bs ++ [tickBar q b]))).toOption.bind List.getLast?) = some c) (hac : bull a < bull c) :
    ¬ SidesFall Q I := by
  intro h
  obtain ⟨s, hs, ls⟩ := last_of h1
  obtain ⟨t, ht, lt⟩ := last_of h2
  obtain ⟨a', c', k1, k2, k3⟩ := h _ _ (uptick_bar hq hQ) (by simp [barItem]; omega) s t hs ht
  rw [ls] at k1
  rw [lt] at k2
  cases k1; cases k2
  omega

/-- **C127 (refuted lines).** On ordinary candles an uptick lowers: the positive directional line and the average directional
index of `Adx`; the positive line of `Vortex`; the lower line of `KeltnerChannel`, which subtracts the true range; the oscillator
of `ProjectionOscillator`; `Mfi`, as the money flow of a falling candle grows with its price; and `EaseOfMovement`, as it
multiplies the distance moved, when that is negative, by the wider range. -/
theorem C127_lines_refuted :
    ¬ Rises Ordinary (ADX 2 2) ADX.Data.plus ∧ ¬ Rises Ordinary (ADX 2 2) ADX.Data.adx ∧
    ¬ Rises Ordinary (Vortex 2) Vortex.Data.plus ∧ ¬ Rises Ordinary (Keltner 2).toIndicator Band.lower ∧
    ¬ Rises Ordinary (Projection 3 2).toIndicator Projection.Data.po ∧
    ¬ Rises Ordinary (@MFI (XF ℚ) anyMath 2).toIndicator Rec.value ∧ ¬ Rises Ordinary (EMV 1) Rec.value :=
  ⟨not_rises [⟨6, 8, 5, 8, 1⟩, ⟨14, 15, 11, 12, 1⟩] ⟨10, 13, 9, 13, 1⟩ 14 (140 / 3) (700 / 17) (by decide +kernel)
      (by decide +kernel) (by decide +kernel) (by decide +kernel) (by decide +kernel),
    not_rises [⟨11, 13, 10, 10, 1⟩] ⟨10, 12, 8, 12, 1⟩ 15 50 0 (by decide +kernel)
      (by decide +kernel) (by decide +kernel) (by decide +kernel) (by decide +kernel),
    not_rises [⟨5, 8, 5, 7, 1⟩] ⟨7, 15, 6, 14, 1⟩ 17 (10 / 9) (12 / 11) (by decide +kernel)
      (by decide +kernel) (by decide +kernel) (by decide +kernel) (by decide +kernel),
    not_rises [⟨10, 13, 9, 11, 1⟩] ⟨8, 14, 8, 14, 1⟩ 15 7 (20 / 3) (by decide +kernel)
      (by decide +kernel) (by decide +kernel) (by decide +kernel) (by decide +kernel),
    not_rises [⟨8, 10, 8, 9, 1⟩, ⟨8, 8, 3, 5, 1⟩, ⟨14, 14, 4, 5, 1⟩] ⟨9, 14, 8, 13, 1⟩ 17 60 (760 / 13) (by decide +kernel)
      (by decide +kernel) (by decide +kernel) (by decide +kernel) (by decide +kernel),
    not_rises [⟨10, 10, 10, 10, 1⟩, ⟨20, 20, 20, 20, 1⟩] ⟨5, 5, 5, 5, 1⟩ 8 80 (2000 / 27) (by decide +kernel)
      (by decide +kernel) (by decide +kernel) (by decide +kernel) (by decide +kernel),
    not_rises [⟨10, 12, 8, 10, 1⟩] ⟨5, 6, 4, 5, 1⟩ 7 (-1000000000) (-1350000000) (by decide +kernel)
      (by decide +kernel) (by decide +kernel) (by decide +kernel) (by decide +kernel)⟩

/-- **C127 (the condition of `PPO`).** With negative prices, which occur for spreads, the line of `PPO` can fall. -/
theorem C127_ppo_refuted : ¬ Rises (K := ℚ) CloseInside (PPO 1 3 2).toIndicator PPO.Data.ppo :=
  not_rises [⟨-10, -10, -10, -10, 1⟩] ⟨2, 2, 2, 2, 1⟩ 3 (-150) (-1300 / 7) (by decide +kernel)
    (by decide +kernel) (by decide +kernel) (by decide +kernel) (by decide +kernel)

/-- **C127 (refuted signals).** On ordinary candles an uptick can turn `Buy` into `Hold` or `Sell`: for `Rsi` and `Mfi`, for
`ProjectionOscillator`, and for both super trends, whose signal shows a flip only where the new level is not 0. It can also
make the signals of `Rsi`, `Mfi` and `ProjectionOscillator` more bullish, so that they do not move against the price either. -/
theorem C127_signals_refuted :
    (¬ SidesRise Ordinary (RSI 2) ∧ ¬ SidesFall Ordinary (RSI 2)) ∧
    (¬ SidesRise Ordinary (@MFI (XF ℚ) anyMath 2) ∧ ¬ SidesFall Ordinary (@MFI (XF ℚ) anyMath 2)) ∧
    (¬ SidesRise Ordinary (Projection 3 2) ∧ ¬ SidesFall Ordinary (Projection 3 2)) ∧
    ¬ SidesRise Ordinary (ST 1 1 true) ∧ ¬ SidesRise Ordinary (PPST 1 1 (.fin 1)) :=
  ⟨⟨not_sidesRise [⟨7, 15, 6, 14, 1⟩, ⟨6, 12, 4, 11, 1⟩, ⟨7, 13, 7, 13, 1⟩] ⟨7, 7, 5, 6, 1⟩ 12 Buy Hold (by decide +kernel)
      (by decide +kernel) (by decide +kernel) (by decide +kernel) (by decide +kernel) (by decide +kernel),
    not_sidesFall [⟨7, 10, 6, 10, 1⟩, ⟨6, 13, 4, 12, 1⟩, ⟨14, 16, 10, 12, 1⟩] ⟨11, 11, 10, 11, 1⟩ 15 Sell Hold (by decide +kernel)
      (by decide +kernel) (by decide +kernel) (by decide +kernel) (by decide +kernel) (by decide +kernel)⟩,
    ⟨not_sidesRise [⟨13, 13, 9, 10, 1⟩, ⟨5, 10, 5, 9, 1⟩] ⟨6, 7, 5, 7, 1⟩ 13 Buy Hold (by decide +kernel)
      (by decide +kernel) (by decide +kernel) (by decide +kernel) (by decide +kernel) (by decide +kernel),
    not_sidesFall [⟨9, 12, 7, 10, 1⟩, ⟨9, 11, 3, 5, 1⟩, ⟨7, 14, 5, 14, 1⟩] ⟨8, 12, 6, 11, 1⟩ 14 Hold Buy (by decide +kernel)
      (by decide +kernel) (by decide +kernel) (by decide +kernel) (by decide +kernel) (by decide +kernel)⟩,
    ⟨not_sidesRise [⟨11, 13, 7, 7, 1⟩, ⟨14, 14, 13, 13, 1⟩, ⟨9, 9, 3, 5, 1⟩, ⟨11, 12, 9, 11, 1⟩] ⟨12, 15, 11, 14, 1⟩ 20 Buy Sell
      (by decide +kernel) (by decide +kernel) (by decide +kernel) (by decide +kernel) (by decide +kernel) (by decide +kernel),
    not_sidesFall [⟨14, 16, 3, 5, 1⟩, ⟨12, 14, 7, 8, 1⟩, ⟨9, 10, 8, 10, 1⟩] ⟨13, 15, 9, 11, 1⟩ 17 Hold Buy (by decide +kernel)
      (by decide +kernel) (by decide +kernel) (by decide +kernel) (by decide +kernel) (by decide +kernel)⟩,
    not_sidesRise [⟨8, 10, 7, 10, 1⟩, ⟨14, 16, 8, 10, 1⟩, ⟨7, 14, 7, 14, 1⟩, ⟨12, 13, 10, 11, 1⟩, ⟨8, 10, 7, 7, 1⟩] ⟨5, 14, 5, 13, 1⟩ 15
      Buy Hold (by decide +kernel) (by decide +kernel) (by decide +kernel) (by decide +kernel) (by decide +kernel)
      (by decide +kernel),
    not_sidesRise [⟨7, 8, 6, 7, 1⟩, ⟨6, 11, 6, 9, 1⟩, ⟨11, 11, 11, 11, 1⟩, ⟨6, 11, 6, 10, 1⟩, ⟨7, 7, 6, 6, 1⟩, ⟨14, 15, 4, 5, 1⟩]
      ⟨12, 14, 10, 14, 1⟩ 16 Buy Hold (by decide +kernel) (by decide +kernel) (by decide +kernel) (by decide +kernel)
      (by decide +kernel) (by decide +kernel)⟩

/-! ## Series to which the theorems apply -/

/-- The last price of three candles goes from 11 to 15, above the old high of 12. -/
theorem tick_ordinary : Uptick Ordinary (barItem [⟨10, 13, 9, 12, 5⟩, ⟨12, 14, 11, 11, 7⟩, ⟨11, 12, 10, 11, 3⟩])
    (barItem [⟨10, 13, 9, 12, 5⟩, ⟨12, 14, 11, 11, 7⟩, ⟨11, 15, 10, 15, 3⟩]) :=
  uptick_bar (bs := [⟨10, 13, 9, 12, 5⟩, ⟨12, 14, 11, 11, 7⟩]) (b := ⟨11, 12, 10, 11, 3⟩) (q := 15) (by decide +kernel) (by decide +kernel)

theorem Uptick.mono {K : Type} [Field K] [LinearOrder K] [IsStrictOrderedRing K] {Q R : Bar K → Prop} {it jt : Item (XF K)}
    (h : Uptick Q it jt) (hQ : ∀ b, Q b → R b) : Uptick R it jt := by
  obtain ⟨cs, k, q, c, f, h1, h2, h3, h4, h5, bs, hb, hq⟩ := h
  exact ⟨cs, k, q, c, f, h1, h2, h3, h4, h5, bs, hb, fun b hm => hQ b (hq b hm)⟩

/-- The conditions of the theorems on lines and signals hold for it. -/
example : ∃ it jt : Item (XF ℚ), Uptick (fun _ => True) it jt ∧ Uptick CloseInside it jt ∧
    Uptick (fun b => CloseInside b ∧ HasRange b) it jt ∧ Uptick Traded it jt ∧ Uptick (fun b => 0 ≤ b.v) it jt ∧ Uptick PosCloses it jt ∧
    Uptick (fun b => PosCloses b ∧ 0 ≤ b.v) it jt :=
  ⟨_, _, tick_ordinary.mono fun _ _ => trivial, tick_ordinary.mono fun _ h => h.2.2.1,
    uptick_bar (bs := [⟨10, 13, 9, 12, 5⟩, ⟨12, 14, 11, 11, 7⟩]) (b := ⟨11, 12, 10, 11, 3⟩) (q := 15) (by decide +kernel) (by decide +kernel),
    tick_ordinary.mono fun _ h => ⟨h.2.2.1, h.2.2.2.le⟩, tick_ordinary.mono fun _ h => h.2.2.2.le,
    tick_ordinary.mono fun _ h => h.1.trans_le h.2.2.1.1, tick_ordinary.mono fun _ h => ⟨h.1.trans_le h.2.2.1.1, h.2.2.2.le⟩⟩

/-- The averages, the indices and the channels give values before and after, and they rise strictly. -/
example : (((SMA (F := XF ℚ) 2).data (barItem [⟨10, 13, 9, 12, 5⟩, ⟨12, 14, 11, 11, 7⟩, ⟨11, 12, 10, 11, 3⟩])).map
      fun d => d.getLast?.map Rec.value) = .ok (some (.fin 11)) ∧
    (((SMA (F := XF ℚ) 2).data (barItem [⟨10, 13, 9, 12, 5⟩, ⟨12, 14, 11, 11, 7⟩, ⟨11, 15, 10, 15, 3⟩])).map
      fun d => d.getLast?.map Rec.value) = .ok (some (.fin 13)) ∧
    (((RSI (F := XF ℚ) 2).data (barItem [⟨10, 13, 9, 12, 5⟩, ⟨12, 14, 11, 11, 7⟩, ⟨11, 12, 10, 11, 3⟩])).map
      fun d => d.getLast?.map Rec.value) = .ok (some (.fin 0)) ∧
    (((RSI (F := XF ℚ) 2).data (barItem [⟨10, 13, 9, 12, 5⟩, ⟨12, 14, 11, 11, 7⟩, ⟨11, 15, 10, 15, 3⟩])).map
      fun d => d.getLast?.map Rec.value) = .ok (some (.fin 80)) := by decide +kernel

/-- `MACD` goes from `Hold` to `Buy`. -/
example : ((MACD (F := XF ℚ) 1 2 3).signals (barItem [⟨10, 13, 9, 12, 5⟩, ⟨12, 14, 11, 11, 7⟩, ⟨11, 12, 10, 11, 3⟩])).map List.getLast? = .ok (some Hold) ∧
    ((MACD (F := XF ℚ) 1 2 3).signals (barItem [⟨10, 13, 9, 12, 5⟩, ⟨12, 14, 11, 11, 7⟩, ⟨11, 15, 10, 15, 3⟩])).map List.getLast? = .ok (some Buy) := by
  decide +kernel

end Verif.Props
