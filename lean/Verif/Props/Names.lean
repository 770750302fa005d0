import Verif.Ind.Names
import Verif.Ind.Defaults
import Verif.Props.Mirror
import Mathlib.Data.List.TakeWhile
import Mathlib.Data.Nat.Digits.Lemmas

/-!
# Names tell indicators apart (C119)

`RunStrategies` collects the signals of several strategies by name, and a chart labels its lines with it. Two calls of
constructors that differ should give different names.
-/

set_option linter.unusedVariables false

namespace Verif.Props
open Verif Verif.Klines Verif.Ta Verif.Ind GoFloat XF

variable {F : Type}

/-! ## Vocabulary -/

/-- Constructors that print all their parameters. -/
def PrintsAll : Maker F → Prop
  | .vegas .. => False
  | .superTrend .. => False
  | .utBot .. => False
  | .lrc .. => False
  | .pivotTrend .. => False
  | .breakout .. => False
  | _ => True

/-! ## Numbers are printed without ambiguity -/

def isDig (c : Char) : Bool := c.isDigit

theorem digitChar_dig {d : Nat} (h : d < 10) : isDig (Nat.digitChar d) = true := by
  have : ∀ d < 10, isDig (Nat.digitChar d) = true := by decide
  exact this d h

theorem digitChar_inj {d e : Nat} (hd : d < 10) (he : e < 10) (h : Nat.digitChar d = Nat.digitChar e) : d = e := by
  have : ∀ d < 10, ∀ e < 10, Nat.digitChar d = Nat.digitChar e → d = e := by decide
  exact this d hd e he h

theorem map_inj_on {α β : Type} {f : α → β} {l l' : List α} (h : l.map f = l'.map f)
    (hf : ∀ a ∈ l, ∀ b ∈ l', f a = f b → a = b) : l = l' := by
  induction l generalizing l' with
  | nil => cases l' <;> simp_all
  | cons a l ih =>
    cases l' with
    | nil => simp at h
    | cons b l' =>
      simp only [List.map_cons, List.cons.injEq] at h
      rw [hf a (by simp) b (by simp) h.1, ih h.2 fun a ha b hb => hf a (by simp [ha]) b (by simp [hb])]

theorem decN_digits (n : Nat) : ∀ c ∈ decN n, isDig c = true := by
  intro c hc
  unfold decN at hc
  split at hc
  · obtain rfl : c = '0' := by simpa using hc
    rfl
  · obtain ⟨d, hd, rfl⟩ := List.mem_map.mp hc
    exact digitChar_dig (Nat.digits_lt_base (by norm_num) (List.mem_reverse.mp hd))

theorem decN_ne (n : Nat) : decN n ≠ [] := by
  unfold decN
  split
  · simp
  · next h => simpa [Nat.digits_ne_nil_iff_ne_zero] using h

theorem decN_inj {m n : Nat} (h : decN m = decN n) : m = n := by
  have key : ∀ {n : Nat}, n ≠ 0 → decN n ≠ ['0'] := by
    intro n hn h0
    rw [decN, if_neg hn] at h0
    have h1 : (Nat.digits 10 n).reverse.map Nat.digitChar = [0].map Nat.digitChar := h0
    have h2 := map_inj_on h1 ?_
    · rw [List.reverse_eq_iff] at h2
      exact Nat.getLast_digit_ne_zero 10 hn (by simp [h2])
    · intro a ha b hb hab
      refine digitChar_inj (Nat.digits_lt_base (by norm_num) (List.mem_reverse.mp ha)) ?_ hab
      simp at hb; omega
  by_cases hm : m = 0
  · by_cases hn : n = 0
    · rw [hm, hn]
    · exact absurd (h.symm.trans (by rw [decN, if_pos hm])) (key hn)
  · by_cases hn : n = 0
    · exact absurd (h.trans (by rw [decN, if_pos hn])) (key hm)
    · rw [decN, decN, if_neg hm, if_neg hn] at h
      have h2 := map_inj_on h fun a ha b hb hab =>
        digitChar_inj (Nat.digits_lt_base (by norm_num) (List.mem_reverse.mp ha))
          (Nat.digits_lt_base (by norm_num) (List.mem_reverse.mp hb)) hab
      exact Nat.digits_inj_iff.mp (List.reverse_injective h2)

/-- Lists that do not begin with a digit. -/
def NoDig (r : List Char) : Prop := ∀ c t, r = c :: t → isDig c = false

theorem split_inj {p : Char → Bool} {x y r r' : List Char} (hx : ∀ c ∈ x, p c = true) (hy : ∀ c ∈ y, p c = true)
    (hr : ∀ c t, r = c :: t → p c = false) (hr' : ∀ c t, r' = c :: t → p c = false) (h : x ++ r = y ++ r') : x = y ∧ r = r' := by
  induction x generalizing y with
  | nil =>
    cases y with
    | nil => exact ⟨rfl, h⟩
    | cons b y => exact absurd (hr b (y ++ r') h) (by simp [hy b (by simp)])
  | cons a x ih =>
    cases y with
    | nil => exact absurd (hr' a (x ++ r) h.symm) (by simp [hx a (by simp)])
    | cons b y =>
      simp only [List.cons_append, List.cons.injEq] at h
      obtain ⟨h1, h2⟩ := ih (fun c hc => hx c (by simp [hc])) (fun c hc => hy c (by simp [hc])) h.2
      exact ⟨by rw [h.1, h1], h2⟩

theorem dec_split {a b : Int} {r r' : List Char} (hr : NoDig r) (hr' : NoDig r') (h : dec a ++ r = dec b ++ r') : a = b ∧ r = r' := by
  have head : ∀ n : Nat, ∀ {t u : List Char}, decN n ++ t ≠ '-' :: u := by
    intro n t u hh
    cases hd : decN n with
    | nil => exact decN_ne n hd
    | cons c l =>
      rw [hd] at hh
      have hc := decN_digits n c (by simp [hd])
      obtain rfl : c = '-' := by simpa using (List.cons.inj hh).1
      exact absurd hc (by decide)
  cases a with
  | ofNat m =>
    cases b with
    | ofNat n =>
      obtain ⟨h1, h2⟩ := split_inj (decN_digits m) (decN_digits n) hr hr' h
      exact ⟨by rw [decN_inj h1], h2⟩
    | negSucc n => exact absurd h (head m)
  | negSucc m =>
    cases b with
    | ofNat n => exact absurd h.symm (head n)
    | negSucc n =>
      obtain ⟨h1, h2⟩ := split_inj (decN_digits (m + 1)) (decN_digits (n + 1)) hr hr' (List.cons.inj h).2
      have := decN_inj h1
      exact ⟨by rw [show m = n by omega], h2⟩

theorem noDig_nil : NoDig [] := fun _ _ h => by simp at h

theorem noDig_cons {c : Char} {t : List Char} (h : isDig c = false) : NoDig (c :: t) := fun d u e => by
  obtain ⟨rfl, -⟩ := List.cons.inj e; exact h

theorem dec_inj {a b : Int} (h : dec a = dec b) : a = b :=
  (dec_split noDig_nil noDig_nil (by rw [List.append_nil, List.append_nil, h])).1

theorem dashed_inj {l l' : List Int} (hl : l.length = l'.length) (h : dashed l = dashed l') : l = l' := by
  induction l generalizing l' with
  | nil => cases l' <;> simp_all
  | cons a l ih =>
    cases l' with
    | nil => simp at hl
    | cons b l' =>
      cases l with
      | nil =>
        cases l' with
        | nil => rw [dec_inj h]
        | cons => simp at hl
      | cons a' l =>
        cases l' with
        | nil => simp at hl
        | cons b' l' =>
          obtain ⟨h1, h2⟩ := dec_split (noDig_cons (by decide)) (noDig_cons (by decide)) h
          rw [h1, ih (by simpa using hl) (List.cons.inj h2).2]

/-! ## Kinds -/

/-- The types of objects. -/
inductive LeadKind where
  | keltner | boll | donchian | ulcer | stochRsi | traderXO | vortex | kdj | macd | ma | adx | ema | sma | rsi | atr | reversal | smc | rma | dema | apo | chaikin | stoch | ichimoku | projection | awesome | ppo | williams | volOsc | vwma | force | mfi | vpt | obv | ad | emv | cmf | nvi | aiCci | cci | camarilla | heat | vegas | superTrend | utBot | lrc | pivotTrend | breakout
  deriving DecidableEq

def kinds : List LeadKind := [.keltner, .boll, .donchian, .ulcer, .stochRsi, .traderXO, .vortex, .kdj, .macd, .ma, .adx, .ema, .sma, .rsi, .atr, .reversal, .smc, .rma, .dema, .apo, .chaikin, .stoch, .ichimoku, .projection, .awesome, .ppo, .williams, .volOsc, .vwma, .force, .mfi, .vpt, .obv, .ad, .emv, .cmf, .nvi, .aiCci, .cci, .camarilla, .heat, .vegas, .superTrend, .utBot, .lrc, .pivotTrend, .breakout]

theorem mem_kinds (k : LeadKind) : k ∈ kinds := by cases k <;> decide

/-- The letters in front of the parameters. -/
def tag : LeadKind → List Char
  | .keltner => "KeltnerChannel".toList
  | .boll => "Boll".toList
  | .donchian => "DonchianChannel".toList
  | .ulcer => "UlcerIndex".toList
  | .stochRsi => "StochRsi".toList
  | .traderXO => "TraderXO".toList
  | .vortex => "Vortex".toList
  | .kdj => "Kdj".toList
  | .macd => "Macd".toList
  | .ma => "Ma".toList
  | .adx => "AverageDirectionalIndex".toList
  | .ema => "Ema".toList
  | .sma => "Sma".toList
  | .rsi => "Rsi".toList
  | .atr => "Atr".toList
  | .reversal => "ReversalSignals".toList
  | .smc => "SmartMoneyConcepts".toList
  | .rma => "Rma".toList
  | .dema => "Dema".toList
  | .apo => "AbsolutePriceOscillator".toList
  | .chaikin => "ChaikinOscillator".toList
  | .stoch => "StochasticOscillator".toList
  | .ichimoku => "IchimokuCloud".toList
  | .projection => "ProjectionOscillator".toList
  | .awesome => "AwesomeOscillator".toList
  | .ppo => "PercentagePriceOscillator".toList
  | .williams => "WilliamsR".toList
  | .volOsc => "VolumeOscillator".toList
  | .vwma => "Vwma".toList
  | .force => "ForceIndex".toList
  | .mfi => "MoneyFlowIndex".toList
  | .vpt => "VolumePriceTrend".toList
  | .obv => "Obv".toList
  | .ad => "AccumulationDistribution".toList
  | .emv => "EaseOfMovement".toList
  | .cmf => "ChaikinMoneyFlow".toList
  | .nvi => "NegativeVolumeIndex".toList
  | .aiCci => "AiCoinCCI".toList
  | .cci => "CCI".toList
  | .camarilla => "Camarilla".toList
  | .heat => "StochasticHeat".toList
  | .vegas => "EMAVegas".toList
  | .superTrend => "SuperTrend".toList
  | .utBot => "UTBot".toList
  | .lrc => "LinearRegressionCandles".toList
  | .pivotTrend => "PivotPointSuperTrend".toList
  | .breakout => "BreakoutProbability".toList

def kind : Maker F → LeadKind
  | .keltner .. => .keltner
  | .boll .. => .boll
  | .donchian .. => .donchian
  | .ulcer .. => .ulcer
  | .stochRsi .. => .stochRsi
  | .traderXO .. => .traderXO
  | .vortex .. => .vortex
  | .kdj .. => .kdj
  | .macd .. => .macd
  | .ma .. => .ma
  | .adx .. => .adx
  | .ema .. => .ema
  | .sma .. => .sma
  | .rsi .. => .rsi
  | .atr .. => .atr
  | .reversal .. => .reversal
  | .smc .. => .smc
  | .rma .. => .rma
  | .dema .. => .dema
  | .apo .. => .apo
  | .chaikin .. => .chaikin
  | .stoch .. => .stoch
  | .ichimoku .. => .ichimoku
  | .projection .. => .projection
  | .awesome .. => .awesome
  | .ppo .. => .ppo
  | .williams .. => .williams
  | .volOsc .. => .volOsc
  | .vwma .. => .vwma
  | .force .. => .force
  | .mfi .. => .mfi
  | .vpt .. => .vpt
  | .obv .. => .obv
  | .ad .. => .ad
  | .emv .. => .emv
  | .cmf .. => .cmf
  | .nvi .. => .nvi
  | .aiCci .. => .aiCci
  | .cci .. => .cci
  | .camarilla .. => .camarilla
  | .heat .. => .heat
  | .vegas .. => .vegas
  | .superTrend .. => .superTrend
  | .utBot .. => .utBot
  | .lrc .. => .lrc
  | .pivotTrend .. => .pivotTrend
  | .breakout .. => .breakout

/-- What follows the letters. -/
def body (fixed : Nat → F → List Char) : Maker F → List Char
  | .keltner period => dashed [period]
  | .boll periodN periodK => dashed [periodN, periodK]
  | .donchian period => dashed [period]
  | .ulcer period => dashed [period]
  | .stochRsi smoothK smoothD rsiLength stochLength => dashed [smoothK, smoothD, rsiLength, stochLength]
  | .traderXO fast slow => dashed [fast, slow]
  | .vortex period => dashed [period]
  | .kdj period => dashed [period]
  | .macd short signal long => dashed [short, signal, long]
  | .ma period => dashed [period]
  | .adx period length => dashed [period, length]
  | .ema period => dashed [period]
  | .sma period => dashed [period]
  | .rsi period => dashed [period]
  | .atr period => dashed [period]
  | .reversal => dashed []
  | .smc swing confirmation threshold => dashed [swing, confirmation, threshold]
  | .rma period => dashed [period]
  | .dema period => dashed [period]
  | .apo => dashed []
  | .chaikin fast slow => dashed [fast, slow]
  | .stoch period => dashed [period]
  | .ichimoku conversion spanB lagging => dashed [conversion, spanB, lagging]
  | .projection period smooth => dashed [period, smooth]
  | .awesome => dashed []
  | .ppo fast slow signal => dashed [fast, slow, signal]
  | .williams period => dashed [period]
  | .volOsc short long => dashed [short, long]
  | .vwma period => dashed [period]
  | .force period => dashed [period]
  | .mfi period => dashed [period]
  | .vpt period => dashed [period]
  | .obv => dashed []
  | .ad => dashed []
  | .emv period => dashed [period]
  | .cmf period => dashed [period]
  | .nvi => dashed []
  | .aiCci period => '-' :: dec period
  | .cci period smaPeriod => dec period ++ '-' :: 'S' :: 'M' :: 'A' :: dec smaPeriod
  | .camarilla emaPeriod => '-' :: dec emaPeriod
  | .heat inc smoothFast smoothSlow plotNum ma => dashed [inc, smoothFast, smoothSlow, plotNum, ma.toNat]
  | .vegas _ short1 short2 long1 long2 => dashed [short1, short2, long1, long2]
  | .superTrend atrPeriod atrMultiplier _ => dashed [atrPeriod, atrMultiplier]
  | .utBot period _ => dashed [period]
  | .lrc smoothing length _ => dashed [smoothing, length]
  | .pivotTrend period atrPeriod factor => dec period ++ '-' :: (dec atrPeriod ++ '-' :: fixed 6 factor)
  | .breakout step lines => fixed 2 step ++ '-' :: dec (BP.clamp lines)

theorem name_eq (fixed : Nat → F → List Char) (a : Maker F) : name fixed a = tag (kind a) ++ body fixed a := by
  cases a <;> rfl

theorem tag_letters (k : LeadKind) : ∀ c ∈ tag k, c.isAlpha = true := by
  have : ∀ k ∈ kinds, ∀ c ∈ tag k, c.isAlpha = true := by decide +kernel
  exact this k (mem_kinds k)

theorem tag_inj {k k' : LeadKind} (h : tag k = tag k') : k = k' := by
  have : ∀ k ∈ kinds, ∀ k' ∈ kinds, tag k = tag k' → k = k' := by decide +kernel
  exact this k (mem_kinds k) k' (mem_kinds k') h

theorem tag_breakout {k : LeadKind} {t : List Char} (h : tag k = tag .breakout ++ t) : k = .breakout := by
  have : ∀ k ∈ kinds, (tag .breakout).isPrefixOf (tag k) = true → k = .breakout := by decide +kernel
  exact this k (mem_kinds k) (by rw [h]; simp [List.isPrefixOf_iff_prefix])

theorem dec_head (a : Int) : ∀ c t, dec a = c :: t → c.isAlpha = false := by
  have hd : ∀ c : Char, isDig c = true → c.isAlpha = false := by
    intro c hc
    simp only [isDig, Char.isDigit, Char.isAlpha, Char.isUpper, Char.isLower, Bool.and_eq_true, decide_eq_true_eq,
      Bool.or_eq_false_iff, Bool.and_eq_false_iff, decide_eq_false_iff_not, UInt32.le_iff_toNat_le] at hc ⊢
    obtain ⟨h1, h2⟩ := hc
    refine ⟨?_, Or.inl ?_⟩
    · rintro ⟨h3, -⟩; simp at h2 h3; omega
    · intro h3; simp at h2 h3; omega
  intro c t h
  cases a with
  | ofNat n => exact hd c (decN_digits n c (by rw [show decN n = c :: t from h]; simp))
  | negSucc n => obtain ⟨rfl, -⟩ := List.cons.inj h; rfl

theorem app_head {x r : List Char} (hx : x ≠ []) (h : ∀ c t, x = c :: t → c.isAlpha = false) :
    ∀ c t, x ++ r = c :: t → c.isAlpha = false := by
  intro c t e
  cases x with
  | nil => exact absurd rfl hx
  | cons d u => obtain ⟨rfl, -⟩ := List.cons.inj e; exact h _ _ rfl

theorem dec_ne (a : Int) : dec a ≠ [] := by
  cases a with
  | ofNat n => exact decN_ne n
  | negSucc n => exact List.cons_ne_nil _ _

theorem dashed_head (l : List Int) : ∀ c t, dashed l = c :: t → c.isAlpha = false := by
  match l with
  | [] => intro c t h; simp [dashed] at h
  | [a] => exact dec_head a
  | a :: b :: l => exact app_head (dec_ne a) (dec_head a)

theorem body_head (fixed : Nat → F → List Char) {a : Maker F} (h : kind a ≠ .breakout) :
    ∀ c t, body fixed a = c :: t → c.isAlpha = false := by
  cases a <;> first
    | exact dashed_head _
    | exact absurd rfl h
    | exact app_head (dec_ne _) (dec_head _)
    | (intro c t e; obtain ⟨rfl, -⟩ := List.cons.inj e; rfl)

theorem name_split (fixed : Nat → F → List Char) {a b : Maker F} (h : name fixed a = name fixed b) :
    kind a = kind b ∧ body fixed a = body fixed b := by
  rw [name_eq, name_eq] at h
  -- if one is a breakout object, so is the other
  have key : ∀ {a b : Maker F}, tag (kind a) ++ body fixed a = tag (kind b) ++ body fixed b → kind a = .breakout → kind b = .breakout := by
    intro a b h ha
    by_contra hb
    rw [ha] at h
    have h1 : (tag (kind b) ++ body fixed b).takeWhile Char.isAlpha = tag (kind b) := by
      rw [List.takeWhile_append_of_pos (tag_letters _)]
      cases e : body fixed b with
      | nil => simp
      | cons c t => simp [body_head fixed hb c t e]
    rw [← h, List.takeWhile_append_of_pos (tag_letters _)] at h1
    exact hb (tag_breakout h1.symm)
  by_cases ha : kind a = .breakout
  · have hb := key h ha
    rw [ha, hb] at h
    exact ⟨ha.trans hb.symm, List.append_cancel_left h⟩
  · have hb : kind b ≠ .breakout := fun hb => ha (key h.symm hb)
    obtain ⟨h1, h2⟩ := split_inj (tag_letters _) (tag_letters _) (body_head fixed ha) (body_head fixed hb) h
    exact ⟨tag_inj h1, h2⟩

def args : Maker F → List Int
  | .keltner period => [period]
  | .boll periodN periodK => [periodN, periodK]
  | .donchian period => [period]
  | .ulcer period => [period]
  | .stochRsi smoothK smoothD rsiLength stochLength => [smoothK, smoothD, rsiLength, stochLength]
  | .traderXO fast slow => [fast, slow]
  | .vortex period => [period]
  | .kdj period => [period]
  | .macd short signal long => [short, signal, long]
  | .ma period => [period]
  | .adx period length => [period, length]
  | .ema period => [period]
  | .sma period => [period]
  | .rsi period => [period]
  | .atr period => [period]
  | .reversal => []
  | .smc swing confirmation threshold => [swing, confirmation, threshold]
  | .rma period => [period]
  | .dema period => [period]
  | .apo => []
  | .chaikin fast slow => [fast, slow]
  | .stoch period => [period]
  | .ichimoku conversion spanB lagging => [conversion, spanB, lagging]
  | .projection period smooth => [period, smooth]
  | .awesome => []
  | .ppo fast slow signal => [fast, slow, signal]
  | .williams period => [period]
  | .volOsc short long => [short, long]
  | .vwma period => [period]
  | .force period => [period]
  | .mfi period => [period]
  | .vpt period => [period]
  | .obv => []
  | .ad => []
  | .emv period => [period]
  | .cmf period => [period]
  | .nvi => []
  | .aiCci period => [period]
  | .cci period smaPeriod => [period, smaPeriod]
  | .camarilla emaPeriod => [emaPeriod]
  | .heat inc smoothFast smoothSlow plotNum ma => [inc, smoothFast, smoothSlow, plotNum, ma.toNat]
  | _ => []

def remake : LeadKind → List Int → Option (Maker F)
  | .keltner, [a] => some (.keltner a)
  | .boll, [a, b] => some (.boll a b)
  | .donchian, [a] => some (.donchian a)
  | .ulcer, [a] => some (.ulcer a)
  | .stochRsi, [a, b, c, d] => some (.stochRsi a b c d)
  | .traderXO, [a, b] => some (.traderXO a b)
  | .vortex, [a] => some (.vortex a)
  | .kdj, [a] => some (.kdj a)
  | .macd, [a, b, c] => some (.macd a b c)
  | .ma, [a] => some (.ma a)
  | .adx, [a, b] => some (.adx a b)
  | .ema, [a] => some (.ema a)
  | .sma, [a] => some (.sma a)
  | .rsi, [a] => some (.rsi a)
  | .atr, [a] => some (.atr a)
  | .reversal, [] => some .reversal
  | .smc, [a, b, c] => some (.smc a b c)
  | .rma, [a] => some (.rma a)
  | .dema, [a] => some (.dema a)
  | .apo, [] => some .apo
  | .chaikin, [a, b] => some (.chaikin a b)
  | .stoch, [a] => some (.stoch a)
  | .ichimoku, [a, b, c] => some (.ichimoku a b c)
  | .projection, [a, b] => some (.projection a b)
  | .awesome, [] => some .awesome
  | .ppo, [a, b, c] => some (.ppo a b c)
  | .williams, [a] => some (.williams a)
  | .volOsc, [a, b] => some (.volOsc a b)
  | .vwma, [a] => some (.vwma a)
  | .force, [a] => some (.force a)
  | .mfi, [a] => some (.mfi a)
  | .vpt, [a] => some (.vpt a)
  | .obv, [] => some .obv
  | .ad, [] => some .ad
  | .emv, [a] => some (.emv a)
  | .cmf, [a] => some (.cmf a)
  | .nvi, [] => some .nvi
  | .aiCci, [a] => some (.aiCci a)
  | .cci, [a, b] => some (.cci a b)
  | .camarilla, [a] => some (.camarilla a)
  | .heat, [a, b, c, d, e] => some (.heat a b c d (UInt32.ofNat e.toNat))
  | _, _ => none

theorem remake_args {a : Maker F} (h : PrintsAll a) : remake (kind a) (args a) = some a := by
  cases a <;> first | rfl | exact False.elim h | skip
  simp [remake, kind, args]

def arity : LeadKind → Nat
  | .keltner => 1
  | .boll => 2
  | .donchian => 1
  | .ulcer => 1
  | .stochRsi => 4
  | .traderXO => 2
  | .vortex => 1
  | .kdj => 1
  | .macd => 3
  | .ma => 1
  | .adx => 2
  | .ema => 1
  | .sma => 1
  | .rsi => 1
  | .atr => 1
  | .reversal => 0
  | .smc => 3
  | .rma => 1
  | .dema => 1
  | .apo => 0
  | .chaikin => 2
  | .stoch => 1
  | .ichimoku => 3
  | .projection => 2
  | .awesome => 0
  | .ppo => 3
  | .williams => 1
  | .volOsc => 2
  | .vwma => 1
  | .force => 1
  | .mfi => 1
  | .vpt => 1
  | .obv => 0
  | .ad => 0
  | .emv => 1
  | .cmf => 1
  | .nvi => 0
  | .aiCci => 1
  | .cci => 2
  | .camarilla => 1
  | .heat => 5
  | _ => 0

theorem args_length (a : Maker F) : (args a).length = arity (kind a) := by cases a <;> rfl

def shape : LeadKind → List Int → List Char
  | .aiCci, l => '-' :: dashed l
  | .camarilla, l => '-' :: dashed l
  | .cci, [a, b] => dec a ++ '-' :: 'S' :: 'M' :: 'A' :: dec b
  | _, l => dashed l

theorem body_shape (fixed : Nat → F → List Char) {a : Maker F} (h : PrintsAll a) : body fixed a = shape (kind a) (args a) := by
  cases a <;> first | rfl | exact False.elim h

theorem shape_inj {k : LeadKind} {l l' : List Int} (hl : l.length = arity k) (hl' : l'.length = arity k) (h : shape k l = shape k l') :
    l = l' := by
  by_cases h1 : k = .aiCci
  · subst h1; exact dashed_inj (hl.trans hl'.symm) (List.cons.inj h).2
  by_cases h2 : k = .camarilla
  · subst h2; exact dashed_inj (hl.trans hl'.symm) (List.cons.inj h).2
  by_cases h3 : k = .cci
  · subst h3
    match l, l', hl, hl' with
    | [a, b], [c, d], _, _ =>
      obtain ⟨h4, h5⟩ := dec_split (noDig_cons (by decide)) (noDig_cons (by decide)) (show dec a ++ _ = dec c ++ _ from h)
      have h6 : dec b = dec d := by simpa using h5
      rw [h4, dec_inj h6]
  · have e : ∀ l, shape k l = dashed l := by intro l; cases k <;> first | rfl | exact absurd rfl h1 | exact absurd rfl h2 | exact absurd rfl h3
    rw [e, e] at h
    exact dashed_inj (hl.trans hl'.symm) h

theorem printsAll_kind {a b : Maker F} (h : kind a = kind b) (ha : PrintsAll a) : PrintsAll b := by
  have e : ∀ a : Maker F, PrintsAll a ↔ kind a ∉ [LeadKind.vegas, .superTrend, .utBot, .lrc, .pivotTrend, .breakout] := by
    intro a
    cases a <;> simp [PrintsAll, kind]
  rw [e, ← h, ← e]; exact ha

/-! ## The property -/

/-- **C119**: constructors that print all their parameters. Equal names come from the same constructor called with the same
parameters, whatever the other object is and however floats are printed; so a name stands for one strategy only.

Missing from the full claim: `EMAVegas`, `SuperTrend`, `UTBot`, `LinearRegressionCandles`, `PivotPointSuperTrend` and
`BreakoutProbability`, which leave out a parameter or digits of it; see `C119_hidden` and `C119_refuted`. -/
theorem C119_names_partial (fixed : Nat → F → List Char) {a b : Maker F} (ha : PrintsAll a) : name fixed a = name fixed b ↔ a = b := by
  refine ⟨fun h => ?_, fun h => by rw [h]⟩
  obtain ⟨hk, hb⟩ := name_split fixed h
  have hb' := printsAll_kind hk ha
  rw [body_shape fixed ha, body_shape fixed hb', ← hk] at hb
  have he := shape_inj (args_length a) (by rw [args_length, hk]) hb
  have := (remake_args ha).symm.trans ((congrArg₂ remake hk he).trans (remake_args hb'))
  exact Option.some.inj this

theorem clamp_digit (n : Int) : ∃ c, dec (BP.clamp n) = [c] := by
  have h : BP.clamp n = 1 ∨ BP.clamp n = 2 ∨ BP.clamp n = 3 ∨ BP.clamp n = 4 ∨ BP.clamp n = 5 := by
    unfold BP.clamp; split <;> try split
    all_goals omega
  rcases h with h | h | h | h | h <;> rw [h]
  exacts [⟨'1', by decide +kernel⟩, ⟨'2', by decide +kernel⟩, ⟨'3', by decide +kernel⟩, ⟨'4', by decide +kernel⟩, ⟨'5', by decide +kernel⟩]

theorem of_vegas {m : Maker F} (h : kind m = .vegas) : ∃ p a b c d, m = .vegas p a b c d := by
  cases m <;> simp [kind] at h ⊢

theorem of_superTrend {m : Maker F} (h : kind m = .superTrend) : ∃ a b c, m = .superTrend a b c := by
  cases m <;> simp [kind] at h ⊢

theorem of_utBot {m : Maker F} (h : kind m = .utBot) : ∃ a b, m = .utBot a b := by
  cases m <;> simp [kind] at h ⊢

theorem of_lrc {m : Maker F} (h : kind m = .lrc) : ∃ a b c, m = .lrc a b c := by
  cases m <;> simp [kind] at h ⊢

theorem of_pivotTrend {m : Maker F} (h : kind m = .pivotTrend) : ∃ a b c, m = .pivotTrend a b c := by
  cases m <;> simp [kind] at h ⊢

theorem of_breakout {m : Maker F} (h : kind m = .breakout) : ∃ a b, m = .breakout a b := by
  cases m <;> simp [kind] at h ⊢

theorem hidden_vegas (fixed : Nat → F → List Char) (b : Maker F) (p s1 s2 l1 l2 : Int) :
    name fixed (.vegas p s1 s2 l1 l2) = name fixed b ↔ ∃ p', b = .vegas p' s1 s2 l1 l2 := by
  constructor
  · intro h
    obtain ⟨hk, hb⟩ := name_split fixed h
    obtain ⟨_, _, _, _, _, rfl⟩ := of_vegas hk.symm
    simp only [body] at hb
    have := dashed_inj (by simp) hb
    simp only [List.cons.injEq, and_true] at this
    obtain ⟨rfl, rfl, rfl, rfl⟩ := this
    exact ⟨_, rfl⟩
  · rintro ⟨p', hb⟩; rw [hb, name_eq, name_eq]; simp only [kind, body]

theorem hidden_superTrend (fixed : Nat → F → List Char) (b : Maker F) (p m : Int) (c : Bool) :
    name fixed (.superTrend p m c) = name fixed b ↔ ∃ c', b = .superTrend p m c' := by
  constructor
  · intro h
    obtain ⟨hk, hb⟩ := name_split fixed h
    obtain ⟨_, _, _, rfl⟩ := of_superTrend hk.symm
    simp only [body] at hb
    have := dashed_inj (by simp) hb
    simp only [List.cons.injEq, and_true] at this
    obtain ⟨rfl, rfl⟩ := this
    exact ⟨_, rfl⟩
  · rintro ⟨p', hb⟩; rw [hb, name_eq, name_eq]; simp only [kind, body]

theorem hidden_utBot (fixed : Nat → F → List Char) (b : Maker F) (p q : Int) :
    name fixed (.utBot p q) = name fixed b ↔ ∃ q', b = .utBot p q' := by
  constructor
  · intro h
    obtain ⟨hk, hb⟩ := name_split fixed h
    obtain ⟨_, _, rfl⟩ := of_utBot hk.symm
    simp only [body] at hb
    have := dashed_inj (by simp) hb
    simp only [List.cons.injEq, and_true] at this
    obtain rfl := this
    exact ⟨_, rfl⟩
  · rintro ⟨p', hb⟩; rw [hb, name_eq, name_eq]; simp only [kind, body]

theorem hidden_lrc (fixed : Nat → F → List Char) (b : Maker F) (s l : Int) (c : Bool) :
    name fixed (.lrc s l c) = name fixed b ↔ ∃ c', b = .lrc s l c' := by
  constructor
  · intro h
    obtain ⟨hk, hb⟩ := name_split fixed h
    obtain ⟨_, _, _, rfl⟩ := of_lrc hk.symm
    simp only [body] at hb
    have := dashed_inj (by simp) hb
    simp only [List.cons.injEq, and_true] at this
    obtain ⟨rfl, rfl⟩ := this
    exact ⟨_, rfl⟩
  · rintro ⟨p', hb⟩; rw [hb, name_eq, name_eq]; simp only [kind, body]

theorem hidden_pivotTrend (fixed : Nat → F → List Char) (b : Maker F) (p q : Int) (f : F) :
    name fixed (.pivotTrend p q f) = name fixed b ↔ ∃ f', b = .pivotTrend p q f' ∧ fixed 6 f' = fixed 6 f := by
  constructor
  · intro h
    obtain ⟨hk, hb⟩ := name_split fixed h
    obtain ⟨_, _, _, rfl⟩ := of_pivotTrend hk.symm
    simp only [body] at hb
    obtain ⟨rfl, h1⟩ := dec_split (noDig_cons (by decide)) (noDig_cons (by decide)) hb
    obtain ⟨rfl, h2⟩ := dec_split (noDig_cons (by decide)) (noDig_cons (by decide)) (List.cons.inj h1).2
    exact ⟨_, rfl, (List.cons.inj h2).2.symm⟩
  · rintro ⟨f', hb, hf⟩; rw [hb, name_eq, name_eq]; simp only [kind, body, hf]

theorem hidden_breakout (fixed : Nat → F → List Char) (b : Maker F) (s : F) (n : Int) :
    name fixed (.breakout s n) = name fixed b ↔ ∃ s' n', b = .breakout s' n' ∧ fixed 2 s' = fixed 2 s ∧ BP.clamp n' = BP.clamp n := by
  constructor
  · intro h
    obtain ⟨hk, hb⟩ := name_split fixed h
    obtain ⟨s', n', rfl⟩ := of_breakout hk.symm
    obtain ⟨c, hc⟩ := clamp_digit n
    obtain ⟨c', hc'⟩ := clamp_digit n'
    simp only [body, hc, hc'] at hb
    obtain ⟨h1, h2⟩ := List.append_inj' hb rfl
    exact ⟨s', n', rfl, h1.symm, dec_inj (by rw [hc, hc']; exact (List.cons.inj h2).2.symm)⟩
  · rintro ⟨s', n', hb, h1, h2⟩; rw [hb, name_eq, name_eq]; simp only [kind, body, h1, h2]

/-- **C119**, the other six: exactly what their names leave out. -/
theorem C119_hidden (fixed : Nat → F → List Char) (b : Maker F) :
    (∀ p s1 s2 l1 l2, name fixed (.vegas p s1 s2 l1 l2) = name fixed b ↔ ∃ p', b = .vegas p' s1 s2 l1 l2) ∧
    (∀ p m c, name fixed (.superTrend p m c) = name fixed b ↔ ∃ c', b = .superTrend p m c') ∧
    (∀ p q, name fixed (.utBot p q) = name fixed b ↔ ∃ q', b = .utBot p q') ∧
    (∀ s l c, name fixed (.lrc s l c) = name fixed b ↔ ∃ c', b = .lrc s l c') ∧
    (∀ p q f, name fixed (.pivotTrend p q f) = name fixed b ↔ ∃ f', b = .pivotTrend p q f' ∧ fixed 6 f' = fixed 6 f) ∧
    (∀ s n, name fixed (.breakout s n) = name fixed b ↔
      ∃ s' n', b = .breakout s' n' ∧ fixed 2 s' = fixed 2 s ∧ BP.clamp n' = BP.clamp n) :=
  ⟨hidden_vegas fixed b, hidden_superTrend fixed b, hidden_utBot fixed b, hidden_lrc fixed b, hidden_pivotTrend fixed b, hidden_breakout fixed b⟩

/-- `%.kf` for exact numbers. -/
def fixedX (k : Nat) : XF Rat → List Char
  | .fin q => fixedQ k q
  | .pinf => "+Inf".toList
  | .ninf => "-Inf".toList
  | .nan => "NaN".toList

/-- C119 refuted for the six: equal names with different signals (`UTBot`, `SuperTrend`, `EMAVegas`, `PivotPointSuperTrend`) or
different lines (`LinearRegressionCandles`, `BreakoutProbability`) of the same candles. -/
theorem C119_refuted :
    (name fixedX (.utBot 1 1) = name fixedX (.utBot 1 2) ∧ ((UT 1 1).signals (onePriceItem [1, 2, 3, 1, 5, 2])).toOption ≠
      ((UT 1 2).signals (onePriceItem [1, 2, 3, 1, 5, 2])).toOption) ∧
    (name fixedX (.superTrend 2 1 true) = name fixedX (.superTrend 2 1 false) ∧
      ((ST 2 1 true).signals (onePriceItem [1, 2, 3, 1, 5])).toOption ≠
      ((ST 2 1 false).signals (onePriceItem [1, 2, 3, 1, 5])).toOption) ∧
    (name fixedX (.vegas 1 2 3 4 5) = name fixedX (.vegas 3 2 3 4 5) ∧
      ((Vegas 1 2 3 4 5).signals (onePriceItem [1, 2, 3, 1, 5, 2, 7, 3, 3, 9, 1, 4, 8, 2])).toOption ≠
      ((Vegas 3 2 3 4 5).signals (onePriceItem [1, 2, 3, 1, 5, 2, 7, 3, 3, 9, 1, 4, 8, 2])).toOption) ∧
    (name fixedX (.pivotTrend 1 1 (.fin 1)) = name fixedX (.pivotTrend 1 1 (.fin (9999999 / 10000000))) ∧
      ((PPST 1 1 (.fin 1)).signals (onePriceItem [1, 9, 7, 7, 8, 9, 3, 3])).toOption ≠
      ((PPST 1 1 (.fin (9999999 / 10000000))).signals (onePriceItem [1, 9, 7, 7, 8, 9, 3, 3])).toOption) ∧
    (name fixedX (.lrc 2 2 true) = name fixedX (.lrc 2 2 false) ∧
      ((LRC 2 2 true).data (onePriceItem [1, 2, 3])).toOption ≠ ((LRC 2 2 false).data (onePriceItem [1, 2, 3])).toOption) ∧
    (name fixedX (.breakout (.fin 1) 2) = name fixedX (.breakout (.fin (1001 / 1000)) 2) ∧
      ((BP (.fin 1) 2).data rangedItem).toOption ≠ ((BP (.fin (1001 / 1000)) 2).data rangedItem).toOption) := by
  decide +kernel

/-- Names as Go prints them, and two constructors to which `C119_names_partial` applies. -/
example : name fixedX (.macd 12 9 26) = "Macd12-9-26".toList ∧ name fixedX (.cci 20 20) = "CCI20-SMA20".toList ∧
    name fixedX (.pivotTrend 3 8 (.fin (28 / 10))) = "PivotPointSuperTrend3-8-2.800000".toList ∧
    name fixedX (.breakout (.fin (12 / 10)) 7) = "BreakoutProbability1.20-5".toList ∧
    name fixedX (.boll 20 (-2)) = "Boll20--2".toList ∧ name fixedX (.heat 8 7 26 25 8) = "StochasticHeat8-7-26-25-8".toList := by
  decide +kernel

example : PrintsAll (F := XF Rat) (.macd 12 9 26) ∧ PrintsAll (F := XF Rat) .obv := ⟨trivial, trivial⟩

example : name fixedX (.macd 1 19 26) ≠ name fixedX (.macd 11 9 26) := fun h =>
  absurd ((C119_names_partial fixedX (a := .macd 1 19 26) trivial).mp h) (by simp)

end Verif.Props
