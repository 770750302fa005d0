import Verif.Props.Indicators
import Verif.Props.Answers
import Verif.Ind.Values

/-!
# The value lists agree with the records (C78)
-/

set_option linter.unusedSectionVars false

namespace Verif.Props
open Verif Verif.Klines Verif.Ta Verif.Ind GoFloat

variable {F : Type} [GoMath F]

/-- The methods that return one slice of numbers, with the field they read. -/
inductive OneField : (I : Indicator F) → (I.S → List I.D → Go (List F)) → (I.D → F) → Prop
  | aiCoinCCI (p : Int) : OneField (AiCCI p).toIndicator (AiCCI.values p) Rec.value
  | cci (p q : Int) : OneField (CCIi p q).toIndicator (CCIi.values p q) Rec.value
  | rsi (p : Int) : OneField (RSI p).toIndicator (RSI.values p) Rec.value
  | utBot (p a : Int) : OneField (UT p a).toIndicator (UT.values p a) UT.Data.value
  | sma (p : Int) : OneField (SMA p) (SMA.values p) Rec.value
  | ema (p : Int) : OneField (EMA p) (EMA.values p) Rec.value
  | dema (p : Int) : OneField (DEMA p) (DEMA.values p) Rec.value
  | linRegCandles (a b : Int) (s : Bool) : OneField (LRC a b s) (LRC.values a b s) LRC.Data.signal
  | macdDif (a b c : Int) : OneField (MACD a b c).toIndicator (MACD.difs a b c) MACD.Data.dif
  | macdMacd (a b c : Int) : OneField (MACD a b c).toIndicator (MACD.macds a b c) MACD.Data.macd
  | volumeOscillator (a b : Int) : OneField (VolOsc a b) (VolOsc.values a b) Rec.value
  | ad : OneField AD AD.values Rec.value

/-- The methods that return two slices of numbers, with the fields they read. -/
inductive TwoFields : (I : Indicator F) → (I.S → List I.D → Go (List F × List F)) → (I.D → F) → (I.D → F) → Prop
  | superTrend (p m : Int) (c : Bool) :
      TwoFields (ST p m c).toIndicator (ST.values p m c) ST.Data.up ST.Data.down
  | pivotPointSuperTrend (p a : Int) (f : F) :
      TwoFields (PPST p a f).toIndicator (PPST.values p a f) ST.Data.up ST.Data.down
  | atr (p : Int) : TwoFields (ATR p) (ATR.values p) ATR.Data.tr ATR.Data.atr
  | traderXO (a b : Int) : TwoFields (XO a b).toIndicator (XO.values a b) XO.Data.fast XO.Data.slow
  | stoch (p : Int) : TwoFields (Stoch p).toIndicator (Stoch.values p) KD.k KD.d

theorem OneField.eq {I : Indicator F} {r} {p : I.D → F} (h : OneField I r p) (s : I.S) (d : List I.D) :
    r s d = .ok (d.map p) := by
  cases h <;> first | exact valuesLoop_eq _ _ | exact valuesAppend_eq _ _

theorem TwoFields.eq {I : Indicator F} {r} {p q : I.D → F} (h : TwoFields I r p q) (s : I.S) (d : List I.D) :
    r s d = .ok (d.map p, d.map q) := by
  cases h <;> first | exact pairLoop_eq _ _ _ | exact pairAppend_eq _ _ _

theorem read_ok {I : Indicator F} {R : Type} {r : I.S → List I.D → Go R} {v : List I.D → R}
    (h : ∀ s d, r s d = .ok (v d)) (e : Obj I) :
    e.read r = (e.GetData).map fun x => (v x.1, x.2) := by
  rw [Obj.GetData, Obj.read, Obj.read]
  cases e.ensure with
  | error p => rfl
  | ok e' =>
    simp only [ok_bind, pure_eq_ok, h]
    rfl

/-- **C78.** On an object in any state, a value list returns exactly when `GetData` returns, leaves the same object
behind, and holds the named field of every record in order. -/
theorem C78_one_field {I : Indicator F} {r} {p : I.D → F} (h : OneField I r p) (e : Obj I) :
    (∀ d e', e.GetData = .ok (d, e') → e.read r = .ok (d.map p, e')) ∧
    (∀ x, e.GetData = .error x → e.read r = .error x) := by
  rw [read_ok h.eq]
  exact ⟨fun d e' hd => by rw [hd]; rfl, fun x hx => by rw [hx]; rfl⟩

/-- **C78**, the methods with two results. -/
theorem C78_two_fields {I : Indicator F} {r} {p q : I.D → F} (h : TwoFields I r p q) (e : Obj I) :
    (∀ d e', e.GetData = .ok (d, e') → e.read r = .ok ((d.map p, d.map q), e')) ∧
    (∀ x, e.GetData = .error x → e.read r = .error x) := by
  rw [read_ok h.eq]
  exact ⟨fun d e' hd => by rw [hd]; rfl, fun x hx => by rw [hx]; rfl⟩

/-- **C78.** On a new object of the library the list has one value per candle, in candle order. -/
theorem C78_one_value_per_candle {I : Indicator F} {time : I.D → Int} {r} {p : I.D → F} (hl : Library I time)
    (h : OneField I r p) {it : Item F} {v : List F} (hv : I.get r it = .ok v) :
    v.length = it.candles.length ∧ ∃ d, I.data it = .ok d ∧ v = d.map p := by
  cases hd : I.data it with
  | error x => rw [Indicator.get_of_error hd] at hv; cases hv
  | ok d =>
    cases hs : I.source it with
    | error x => simp [Indicator.data, Indicator.new, hs] at hd
    | ok s =>
      rw [Indicator.get_of_data hs hd, h.eq] at hv
      obtain rfl := Except.ok.inj hv
      exact ⟨by rw [List.length_map, C37_one_record_per_candle hl hd], d, rfl, rfl⟩

/-- A MACD of fifteen candles: fifteen differences, the `DIF` fields of the records. -/
example : ∃ v, (MACD (F := XF ℝ) 12 9 26).toIndicator.get (MACD.difs 12 9 26) (minutes 15) = .ok v ∧ v.length = 15 := by
  obtain ⟨d, hd⟩ := (C77_answers_iff (.macd 12 9 26) (minutes 15)).mpr trivial
  have hg := (Indicator.get_of_data (I := (MACD (F := XF ℝ) 12 9 26).toIndicator) (r := MACD.difs 12 9 26) rfl hd).trans
    ((OneField.macdDif 12 9 26).eq _ _)
  exact ⟨_, hg, (C78_one_value_per_candle (.inl (.macd 12 9 26)) (.macdDif 12 9 26) hg).1.trans (by simp [minutes])⟩

end Verif.Props
